import Verif.Lemmas.FieldMeta
import Verif.Lemmas.TablesServe
import Verif.Props.GenFiles
import Verif.Props.Generated

/-!
# C67: types in generated classes

The properties of a generated class have the types that mirror those of the Rust fields, and every class these types mention exists:
as a type parameter, in `System`, in the client library, or as a message that is generated as well. Looking up the names finds these
classes, unless a variant or a type parameter is named like one of them.
-/

namespace Steit.Gen

open Steit.Gen.Spec

variable {D : Type} {S : Declarations D}

/-! ## Types of properties -/

/-- C67. In the file of a struct there is one class, with a property for each field, of the type that mirrors the type of the field. -/
theorem C67_struct {cm : CaseMap} (hk : KeepsNames cm) {setting : CSharpSetting} (hn : IsName setting.namespace')
    (hu : ∀ u ∈ setting.usedNamespaces, IsName u) {d : D} {fields : List (DeclField D)} (hb : S.body d = .struct fields)
    (hp : ∀ f ∈ fields, Proper S (S.params d) f.ty)
    (hs : ∀ f ∈ fields, ∀ d', Mentions d' f.ty → (S.name d').csharpName ≠ "Box" ∧ (S.name d').csharpName ≠ "StateMap")
    (hm : Named (S.message d)) {text : Text} (h : source cm setting (S.message d) = some text) :
    ∃ c, classesOf text = [c] ∧ c.props.map (·.1) = fields.map fun f => (mirror f.ty).show S.name := by
  simp only [Declarations.message, hb] at hm h
  obtain ⟨cfs, hf, hc⟩ := classes_struct hk hn hu hm h
  refine ⟨_, hc, ?_⟩
  have := fromMetas_types (S := S) (cm := cm) (fun f hf => fieldType_mirror f.ty (hp f hf) fun d' hd' =>
    (fun h => h.elim (hs f hf d' hd').1 (hs f hf d' hd').2)) hf
  show (cfs.map fun f => (f.typeName, f.name)).map (·.1) = _
  rw [this, List.map_map]
  rfl

/-- C67. In the file of an enum there is a class for the enum, and one for each variant, with a property for each field of the variant, of
the type that mirrors the type of the field. -/
theorem C67_enum {cm : CaseMap} (hk : KeepsNames cm) {setting : CSharpSetting} (hn : IsName setting.namespace')
    (hu : ∀ u ∈ setting.usedNamespaces, IsName u) {d : D} {variants : List (DeclVariant D)} (hb : S.body d = .enum variants)
    (hp : ∀ v ∈ variants, ∀ f ∈ v.fields, Proper S (S.params d) f.ty)
    (hs : ∀ v ∈ variants, ∀ f ∈ v.fields, ∀ d', Mentions d' f.ty → (S.name d').csharpName ≠ "Box" ∧ (S.name d').csharpName ≠ "StateMap")
    (hm : Named (S.message d)) {text : Text} (h : source cm setting (S.message d) = some text) :
    ∃ c cs, classesOf text = c :: cs ∧ c.props = [(lit! "UInt32", lit! "Tag"), (lit! "IState", lit! "Variant")] ∧
      cs.map (·.name) = nestedNames (S.body d) ∧
      cs.map (fun c => c.props.map (·.1)) = variants.map fun v => v.fields.map fun f => (mirror f.ty).show S.name := by
  simp only [Declarations.message, hb] at hm h
  obtain ⟨dflt, cs, hd, hv, hc⟩ := classes_enum hk hn hu hm h
  refine ⟨_, cs, hc, rfl, ?_⟩
  rw [hb]
  simp only [nestedNames]
  clear hm h hd hc hb
  simp only at hv
  generalize hvs : (variants.map fun v => (⟨⟨v.name, [], v.fields.map (·.fieldMeta S.name), S.builtin d⟩, v.tag⟩ : VariantMeta)) = vs at hv
  induction hv generalizing variants with
  | nil =>
    cases List.map_eq_nil_iff.1 hvs
    exact ⟨rfl, rfl⟩
  | @cons v vs cfs cs hf _ ih =>
    cases variants with
    | nil => cases hvs
    | cons v' variants =>
      simp only [List.map_cons, List.cons.injEq] at hvs
      obtain ⟨rfl, hvs⟩ := hvs
      obtain ⟨h1, h2⟩ := ih (fun v hv => hp v (.tail _ hv)) (fun v hv => hs v (.tail _ hv)) hvs
      have := fromMetas_types (S := S) (cm := cm) (fun f hf => fieldType_mirror f.ty (hp _ (.head _) f hf) fun d' hd' =>
        (fun h => h.elim (hs _ (.head _) f hf d' hd').1 (hs _ (.head _) f hf d' hd').2)) hf
      refine ⟨by rw [List.map_cons, List.map_cons, h1]; rfl, ?_⟩
      rw [List.map_cons, List.map_cons, h2]
      refine congrArg (· :: _) ?_
      show (cfs.map fun f => (f.typeName, f.name)).map (·.1) = _
      rw [this, List.map_map]
      rfl

/-! ## Names in types -/

/-- C67. Every name in the type of a property is found where it is used, stands for what is meant, and has as many type arguments as
type parameters. In particular all messages that are mentioned are messages reachable from `root`. -/
theorem C67_names_are_found (hN : OwnNames S) (hS : Compiles S) {root : RTy (Inst D)} (hr : Fits S root) {d : D} (hd : InReach S root d)
    (hc : Clear S d) {f : DeclField D} (hf : f ∈ (S.body d).fields) : Sound S (scopeOf S root d) (mirror f.ty) := by
  obtain ⟨m, rfl, hm⟩ := hd
  exact sound_mirror hN hS hr (s := scopeOf S root m.decl) hc.free rfl (fun p hp => hp) (bindParams (S.params m.decl) m.args) f.ty
    (hS.proper _ f hf) (fun x hx d' hd' => hc.distinct x hx f hf d' hd') (reach_field hm hf)

/-- C67. Type arguments are reached whenever a message with these arguments is (`Used` parameters, however deep in other messages). -/
theorem C67_arguments_are_reached (hS : Compiles S) {root : RTy (Inst D)} (hr : Fits S root) {d : D} {args : List (RTy (Inst D))}
    (h : Reach S.program.graph.links root (.msg (.mk d args))) {a : RTy (Inst D)} (ha : a ∈ args) :
    Reach S.program.graph.links root a := reach_arg hS hr h ha

theorem source_some (hN : OwnNames S) (hS : Compiles S) (hz : ∀ d variants, S.body d = .enum variants → ∃ v ∈ variants, v.tag = 0)
    (cm : CaseMap) (setting : CSharpSetting) (d : D) : source cm setting (S.message d) ≠ none := by
  have hknown : ∀ f ∈ (S.body d).fields, KnownField (f.fieldMeta S.name).ty := fun f hf => by
    refine (fieldType_known _).1 ?_
    show fieldType (fieldTypeMeta S.name f.ty) ≠ none
    rw [fieldType_mirror f.ty (hS.proper d f hf) fun d' _ h => ?_]
    · simp
    · rcases h with h | h
      · exact (hN.fresh d').2.2 h
      · exact (hN.fresh d').2.1 (by rw [h]; decide)
  rw [C49_generates_iff]
  cases hb : S.body d with
  | struct fields =>
    simp only [Declarations.message, hb]
    intro g hg
    obtain ⟨f, hf, rfl⟩ := List.mem_map.1 hg
    exact hknown f (by rw [hb]; exact hf)
  | enum variants =>
    simp only [Declarations.message, hb]
    obtain ⟨v, hv, h0⟩ := hz d variants hb
    refine ⟨⟨_, List.mem_map.2 ⟨v, hv, rfl⟩, h0⟩, fun w hw g hg => ?_⟩
    obtain ⟨v, hv, rfl⟩ := List.mem_map.1 hw
    obtain ⟨f, hf, rfl⟩ := List.mem_map.1 hg
    exact hknown f (by rw [hb]; exact List.mem_flatMap.2 ⟨v, hv, hf⟩)

theorem message_name (d : D) : (S.message d).name = S.name d := by
  unfold Declarations.message
  split <;> rfl

theorem refers_iff {root : RTy (Inst D)} {m : MessageMeta} :
    Refers S.program.graph root m ↔ ∃ d, InReach S root d ∧ m = S.message d := by
  constructor
  · rintro ⟨n, hn, hm⟩
    match n, hn, hm with
    | .msg i, hn, hm =>
      cases hm
      exact ⟨i.decl, ⟨i, rfl, hn⟩, rfl⟩
  · rintro ⟨d, ⟨i, rfl, hi⟩, rfl⟩
    exact ⟨.msg i, hi, rfl⟩

/-- C67, with C48 and C66: generating from a type, on a working disk and with boxes used for recursion only, leaves a set of files that is
closed. There is one for each message that is reachable and not skipped, its source; and every message that is mentioned there is
reachable too, so that it has its file, or was to be skipped. -/
theorem C67_files_are_closed_partial {ω : Type} {disk : Disk ω} (hD : Working disk) (hN : OwnNames S) (hS : Compiles S)
    (hz : ∀ d variants, S.body d = .enum variants → ∃ v ∈ variants, v.tag = 0) {root : RTy (Inst D)} (hr : Fits S root)
    (hb : BoxesRecur S.program root) (hc : ∀ d, InReach S root d → Clear S d) {fuel : Nat} {col es : List (String × MessageMeta)}
    (hcol : collectMeta S.program.graph MessageMeta.csharpName fuel root = some col) (hp : es.Perm col) (cm : CaseMap)
    (csharp : CSharpSetting) (setting : GenSetting) (s : Store ω) :
    ∃ names s', generate disk setting (source cm csharp) es [] s = (.done names, s') ∧
      ∀ d, InReach S root d → Wanted setting.skipBuiltins setting.skipNames (S.name d).csharpName (S.message d) →
        (∃ text, source cm csharp (S.message d) = some text ∧ s'.files (pathOf (S.name d).csharpName) = some (utf8 text)) ∧
        ∀ f ∈ (S.body d).fields, Sound S (scopeOf S root d) (mirror f.ty) := by
  have hname : ∀ d, (S.message d).csharpName = (S.name d).csharpName := fun d => by rw [MessageMeta.csharpName, message_name]
  obtain ⟨names, s', h1, _, _, h2, _⟩ := C66_from_root_partial (D := disk) (setting := setting) (src := source cm csharp)
    (C48_types_tell_recursive_boxes (told_program hN) hb) (fun m m' hm hm' he => by
      obtain ⟨d, _, rfl⟩ := refers_iff.1 hm
      obtain ⟨d', _, rfl⟩ := refers_iff.1 hm'
      rw [hname, hname] at he
      rw [hN.distinct d d' he]) hcol hp hD (fun m hm _ => by
      obtain ⟨d, _, rfl⟩ := refers_iff.1 hm
      exact source_some hN hS hz cm csharp d) s
  refine ⟨names, s', h1, fun d hd hw => ⟨?_, fun f hf => C67_names_are_found hN hS hr hd (hc d hd) hf⟩⟩
  have := h2 (S.message d) (refers_iff.2 ⟨d, hd, rfl⟩) (by rw [hname]; exact hw)
  rw [hname] at this
  exact this

/-! ## Metadata of fields -/

mutual
theorem syn_supported : ∀ (w : Written D), w.syn.supported = true
  | .param _ => rfl
  | .prim _ _ _ => rfl
  | .bytes => rfl
  | .paren t => by simp only [Written.syn, Derive.SynTy.supported]; exact syn_supported t
  | .array _ t => by simp only [Written.syn, Derive.SynTy.supported]; exact syn_supported t
  | .vec t => by simp [Written.syn, Derive.SynTy.supported, Derive.SynArgs.supported, Derive.SynArgList.supported, syn_supported t]
  | .option t => by simp [Written.syn, Derive.SynTy.supported, Derive.SynArgs.supported, Derive.SynArgList.supported, syn_supported t]
  | .box t => by simp [Written.syn, Derive.SynTy.supported, Derive.SynArgs.supported, Derive.SynArgList.supported, syn_supported t]
  | .list t => by simp [Written.syn, Derive.SynTy.supported, Derive.SynArgs.supported, Derive.SynArgList.supported, syn_supported t]
  | .map _ _ _ t => by simp [Written.syn, Derive.SynTy.supported, Derive.SynArgs.supported, Derive.SynArgList.supported, syn_supported t]
  | .msg _ .nil => by simp [Written.syn, Derive.SynTy.supported, Derive.SynArgs.supported]
  | .msg _ (.cons t ts) => by
    simp [Written.syn, Derive.SynTy.supported, Derive.SynArgs.supported, Derive.SynArgList.supported, syn_supported t, args_supported ts]
  | .alias _ => rfl

theorem args_supported : ∀ (ws : WrittenArgs D), ws.syn.supported = true
  | .nil => by simp [WrittenArgs.syn, Derive.SynArgList.supported]
  | .cons t ts => by simp [WrittenArgs.syn, Derive.SynArgList.supported, syn_supported t, args_supported ts]
end

/-- C67. The types modelled are among those the macro accepts (C47). -/
theorem C67_supported (w : Written D) : w.syn.supported = true := syn_supported w

/-- C67. For a type without parameters, what `field_type_meta` would put for an alias of it (its `TYPE`) is the type by which messages
are collected. -/
theorem C67_alias_type (ρ : String → RTy (Inst D)) {w : Written D} (h : Proper S [] w) :
    (w.resolve ρ).type S.program = w.typeMeta S.name := by rw [program_type, resolve_type ρ w h]

theorem primitiveMeta_named {t : Ty} {m : TypeMeta} (h : primitiveMeta t = some m) : ∃ n w, m = .primitive n w := by
  unfold primitiveMeta at h
  split at h <;> first | (cases h; exact ⟨_, _, rfl⟩) | cases h

theorem closed_not_param : ∀ {w : Written D}, Proper S [] w → isParam w = false
  | .param _, h => by simp [Proper] at h
  | .paren w, h => by simp only [Proper] at h; simp only [isParam]; exact closed_not_param h
  | .prim _ _ _, _ | .bytes, _ | .array _ _, _ | .vec _, _ | .option _, _ | .box _, _ | .list _, _ | .map _ _ _ _, _ | .msg _ _, _
  | .alias _, _ => rfl

theorem typeMeta_describes {name : D → NameMeta} : ∀ {w : Written D} {t : Ty}, Means w t → ¬ AliasedBox.boxed w → Proper S [] w →
    DescribesField {} t (.type (w.typeMeta name))
  | .param _, _, _, _, h => by simp [Proper] at h
  | .prim r c w, t, h, _, _ => by
    simp only [Means] at h
    simp [DescribesField, h, Written.typeMeta]
  | .bytes, t, h, _, _ => by simp only [Means] at h; subst h; exact ⟨_, _, rfl⟩
  | .paren w, t, h, hb, hc => typeMeta_describes (w := w) h hb (by simpa only [Proper] using hc)
  | .array _ _, t, h, _, _ => by obtain ⟨_, rfl, _⟩ := h; exact ⟨_, _, rfl⟩
  | .vec _, t, h, _, _ => by obtain ⟨_, rfl, _⟩ := h; exact ⟨_, _, rfl⟩
  | .option _, t, h, _, _ => by obtain ⟨_, rfl, _⟩ := h; exact ⟨_, _, rfl⟩
  | .box _, _, _, hb, _ => absurd trivial hb
  | .list _, t, h, _, _ => by obtain ⟨_, rfl, _⟩ := h; exact ⟨_, _, rfl⟩
  | .map _ _ _ _, t, h, _, _ => by obtain ⟨_, _, rfl, _⟩ := h; exact ⟨_, _, rfl⟩
  | .msg _ _, t, h, _, _ => by
    rcases h with ⟨_, _, _, rfl⟩ | ⟨_, _, _, _, rfl⟩ <;> exact ⟨_, _, rfl⟩
  | .alias w, t, h, hb, hc => by
    simp only [Proper] at hc
    exact typeMeta_describes (w := w) h hb hc.1

/-- C67. The metadata of a field describes the type of the field, as C57 asks (`DescribesField`): type parameters are known as such,
primitive types as what they are, and all others by name. -/
theorem C67_describes {ps : List String} : ∀ {w : Written D} {t : Ty} (attrs : FieldAttrs), attrs.param = isParam w → Means w t →
    ¬ AliasedBox w → Proper S ps w → DescribesField attrs t (fieldTypeMeta S.name w)
  | .param p, t, attrs, ha, _, _, _ => by unfold DescribesField; rw [if_pos (by rw [ha]; rfl)]; exact ⟨p, rfl⟩
  | .prim r c w, t, attrs, ha, h, _, _ => by
    simp only [Means] at h
    simp [DescribesField, h, fieldTypeMeta, ha, isParam]
  | .bytes, t, attrs, ha, h, _, _ => by
    simp only [Means] at h; subst h
    simp [DescribesField, fieldTypeMeta, ha, isParam, primitiveMeta]
  | .paren w, t, attrs, ha, h, hb, hc => C67_describes (w := w) attrs ha h hb (by simpa only [Proper] using hc)
  | .array _ _, t, attrs, ha, h, _, _ => by obtain ⟨_, rfl, _⟩ := h; simp [DescribesField, fieldTypeMeta, ha, isParam, primitiveMeta]
  | .vec _, t, attrs, ha, h, _, _ => by obtain ⟨_, rfl, _⟩ := h; simp [DescribesField, fieldTypeMeta, ha, isParam, primitiveMeta]
  | .option _, t, attrs, ha, h, _, _ => by obtain ⟨_, rfl, _⟩ := h; simp [DescribesField, fieldTypeMeta, ha, isParam, primitiveMeta]
  | .box _, t, attrs, ha, h, _, _ => by obtain ⟨_, rfl, _⟩ := h; simp [DescribesField, fieldTypeMeta, ha, isParam, primitiveMeta]
  | .list _, t, attrs, ha, h, _, _ => by obtain ⟨_, rfl, _⟩ := h; simp [DescribesField, fieldTypeMeta, ha, isParam, primitiveMeta]
  | .map _ _ _ _, t, attrs, ha, h, _, _ => by obtain ⟨_, _, rfl, _⟩ := h; simp [DescribesField, fieldTypeMeta, ha, isParam, primitiveMeta]
  | .msg _ _, t, attrs, ha, h, _, _ => by
    rcases h with ⟨_, _, _, rfl⟩ | ⟨_, _, _, _, rfl⟩ <;> simp [DescribesField, fieldTypeMeta, ha, isParam, primitiveMeta]
  | .alias w, t, attrs, ha, h, hb, hc => by
    simp only [Proper] at hc
    have := typeMeta_describes (S := S) (name := S.name) (w := w) h hb hc.1
    unfold DescribesField at this ⊢
    rw [if_neg (by rw [ha]; simp [isParam])]
    simpa [fieldTypeMeta] using this

/-! ## An example -/

/-- The messages of a small program. -/
inductive ExD
  | pair | item | shape | root

/-- `struct Pair<A, B> { first: A, rest: Vec<B> }`, `struct Item { id: u32, name: String }`,
`enum Shape { Dot, Many { items: List<Item> } }`, and
`struct Root { pairs: Map<u32, Pair<Item, Option<Shape>>>, data: [Bytes; 3], next: Option<Box<Root>>, nums: Nums }` where
`type Nums = Vec<u16>`. -/
def exDecls : Declarations ExD where
  name
    | .pair => ⟨"Pair", none⟩
    | .item => ⟨"Item", none⟩
    | .shape => ⟨"Shape", none⟩
    | .root => ⟨"Root", none⟩
  params
    | .pair => ["A", "B"]
    | _ => []
  body
    | .pair => .struct [⟨⟨"first", none⟩, 0, .param "A"⟩, ⟨⟨"rest", none⟩, 1, .vec (.param "B")⟩]
    | .item => .struct [⟨⟨"id", none⟩, 0, .prim "u32" "UInt32" .varint⟩, ⟨⟨"name", none⟩, 1, .prim "String" "String" .sized⟩]
    | .shape => .enum [⟨⟨"Shape_Dot", some "Dot"⟩, 0, []⟩, ⟨⟨"Shape_Many", some "Many"⟩, 1, [⟨⟨"items", none⟩, 0, .list (.msg .item .nil)⟩]⟩]
    | .root => .struct [
        ⟨⟨"pairs", none⟩, 0, .map "u32" "UInt32" .varint (.msg .pair (.cons (.msg .item .nil) (.cons (.option (.msg .shape .nil)) .nil)))⟩,
        ⟨⟨"data", none⟩, 1, .array 3 .bytes⟩, ⟨⟨"next", none⟩, 2, .option (.box (.msg .root .nil))⟩,
        ⟨⟨"nums", none⟩, 3, .alias (.vec (.prim "u16" "UInt16" .varint))⟩]
  builtin _ := false

/-- `Root`. -/
def exRoot : RTy (Inst ExD) := .msg (.mk .root [])

theorem exDecls_names : OwnNames exDecls where
  distinct d d' := by cases d <;> cases d' <;> first | (intro _; rfl) | (intro h; exact absurd h (by decide))
  fresh d := by cases d <;> decide

theorem exDecls_compiles : Compiles exDecls where
  nodup d := by cases d <;> decide
  used d p hp := by
    cases d with
    | pair =>
      have hp : p ∈ ["A", "B"] := hp
      simp only [List.mem_cons, List.not_mem_nil, or_false] at hp
      rcases hp with rfl | rfl
      · exact .field (f := ⟨⟨"first", none⟩, 0, .param "A"⟩) (.head _) .param
      · exact .field (f := ⟨⟨"rest", none⟩, 1, .vec (.param "B")⟩) (.tail _ (.head _)) (.vec .param)
    | _ => cases hp
  proper d f hf := by
    cases d <;> simp only [exDecls, Body.fields, List.flatMap_cons, List.flatMap_nil, List.append_nil, List.nil_append, List.mem_cons,
      List.not_mem_nil, or_false] at hf
    · rcases hf with rfl | rfl <;> simp [Proper] <;> decide
    · rcases hf with rfl | rfl <;> simp [Proper, systemNames]
    · subst hf; simp [Proper, ProperAll, WrittenArgs.length]; decide
    · rcases hf with rfl | rfl | rfl | rfl <;> simp [Proper, ProperAll, WrittenArgs.length, systemNames, NoMap] <;> decide

theorem exDecls_clear (d : ExD) : Clear exDecls d where
  free := by cases d <;> decide +kernel
  distinct x hx f hf d' hd' := by
    cases d <;> simp only [exDecls, Body.fields, nestedNames, List.flatMap_cons, List.flatMap_nil, List.append_nil, List.nil_append, List.mem_cons,
      List.not_mem_nil, or_false, List.map_cons, List.map_nil] at hf hx
    · rcases hf with rfl | rfl <;> simp [Mentions] at hd'
    · subst hf
      simp only [Mentions, MentionsAny, or_false] at hd'
      subst hd'
      rcases hx with rfl | rfl <;> decide

theorem exRoot_fits : Fits exDecls exRoot := by simp [exRoot, Fits, FitsInst, FitsAll, exDecls]

/-- What the properties of `Root` and of the variants of `Shape` are declared as. -/
example : (mirror (.map "u32" "UInt32" .varint (.msg .pair (.cons (.msg .item .nil) (.cons (.option (.box (.msg .shape .nil))) .nil))))).show
    exDecls.name = lit! "StateMap<Pair<Item, Option<Shape>>>" := by decide +kernel

/-- The types reached from `Root`. -/
def exNodes : List (RTy (Inst ExD)) :=
  let item := .msg (.mk .item [])
  let shape := .option (.msg (.mk .shape []))
  let pair := .msg (.mk .pair [item, shape])
  [exRoot, .option (.box exRoot), .box exRoot, .map "u32" pair, pair, item, .prim "u32" "UInt32" .varint, .prim "String" "String" .sized,
    .vec shape, shape, .msg (.mk .shape []), .list item, .array 3 .bytes, .bytes, .vec (.prim "u16" "UInt16" .varint),
    .prim "u16" "UInt16" .varint]

theorem exRoot_reach {n : RTy (Inst ExD)} (h : Reach exDecls.program.graph.links exRoot n) : n ∈ exNodes := by
  induction h with
  | root => exact .head _
  | link _ hl ih =>
    simp only [exNodes, exRoot, List.mem_cons, List.not_mem_nil, or_false] at ih
    rcases ih with rfl | rfl | rfl | rfl | rfl | rfl | rfl | rfl | rfl | rfl | rfl | rfl | rfl | rfl | rfl | rfl <;>
      simp [Program.graph, Declarations.program, exDecls, Inst.decl, Inst.args, Body.fields, Written.resolve, WrittenArgs.resolve, bindParams] at hl <;>
      simp [exNodes, exRoot] <;> rcases hl with rfl | rfl | rfl | rfl <;> simp

theorem exRoot_boxes : BoxesRecur exDecls.program exRoot := by
  intro t passed hw
  have ht := exRoot_reach (Walk.reach hw)
  simp only [exNodes, exRoot, List.mem_cons, List.not_mem_nil, or_false, reduceCtorEq, false_or, RTy.box.injEq] at ht
  subst ht
  cases hw with
  | @link passed n _ hw hl =>
    have hn := exRoot_reach (Walk.reach hw)
    simp only [exNodes, exRoot, List.mem_cons, List.not_mem_nil, or_false] at hn
    rcases hn with rfl | rfl | rfl | rfl | rfl | rfl | rfl | rfl | rfl | rfl | rfl | rfl | rfl | rfl | rfl | rfl <;>
      simp [Program.graph, Declarations.program, exDecls, Inst.decl, Inst.args, Body.fields, Written.resolve, WrittenArgs.resolve, bindParams] at hl
    cases hw with
    | @link passed n _ hw hl =>
      have hn := exRoot_reach (Walk.reach hw)
      simp only [exNodes, exRoot, List.mem_cons, List.not_mem_nil, or_false] at hn
      rcases hn with rfl | rfl | rfl | rfl | rfl | rfl | rfl | rfl | rfl | rfl | rfl | rfl | rfl | rfl | rfl | rfl <;>
        simp [Program.graph, Declarations.program, exDecls, Inst.decl, Inst.args, Body.fields, Written.resolve, WrittenArgs.resolve, bindParams] at hl
      exact .tail _ (.head _)

/-- From `Root`, all four messages are generated; the file of `Root` is its source. -/
example : ∃ col names s', collectMeta exDecls.program.graph MessageMeta.csharpName 9 exRoot = some col ∧
    col.map (·.1) = ["Root", "Pair", "Item", "Shape"] ∧
    generate slowDisk ⟨true, ["Item"], true, 8192⟩ (source ascii ⟨lit! "N", []⟩) col [] ⟨fun _ => none, ()⟩ = (.done names, s') ∧
    (∃ text, source ascii ⟨lit! "N", []⟩ (exDecls.message .root) = some text ∧ s'.files "Root.cs" = some (utf8 text)) ∧
    ∀ f ∈ (exDecls.body .root).fields, Sound exDecls (scopeOf exDecls exRoot .root) (mirror f.ty) := by
  have hcol : (collectMeta exDecls.program.graph MessageMeta.csharpName 9 exRoot).map (·.map (·.1)) =
      some ["Root", "Pair", "Item", "Shape"] := by decide +kernel
  obtain ⟨col, hcol, hk⟩ := Option.map_eq_some_iff.1 hcol
  obtain ⟨names, s', h1, h2⟩ := C67_files_are_closed_partial slowDisk_working exDecls_names exDecls_compiles (fun d vs hb => by
    cases d <;> cases hb
    exact ⟨_, .head _, rfl⟩) exRoot_fits exRoot_boxes (fun d _ => exDecls_clear d) hcol (.refl _) ascii ⟨lit! "N", []⟩
    ⟨true, ["Item"], true, 8192⟩ ⟨fun _ => none, ()⟩
  exact ⟨col, names, s', hcol, hk, h1, h2 .root ⟨.mk .root [], rfl, .root⟩ ⟨by decide, fun _ => rfl⟩⟩

theorem exRoot_named : Named (exDecls.message .root) := by
  refine ⟨by decide +kernel, fun p hp => (nomatch hp), fun f hf => ?_⟩
  have hf : f ∈ [_, _, _, _] := hf
  simp only [List.mem_cons, List.not_mem_nil, or_false] at hf
  rcases hf with rfl | rfl | rfl | rfl <;>
    simp [DeclField.fieldMeta, fieldTypeMeta, fieldTypeMetas, Written.typeMeta, WrittenArgs.typeMetas, NamedField, NamedType, NamedArgs,
      NameMeta.csharpName, exDecls] <;> decide +kernel

/-- The types in the class of `Root`. -/
example : ∃ text c, source ascii ⟨lit! "N", []⟩ (exDecls.message .root) = some text ∧ classesOf text = [c] ∧
    c.props.map (·.1) = [lit! "StateMap<Pair<Item, Option<Shape>>>", lit! "Vector<Bytes>", lit! "Option<Root>", lit! "Vector<UInt16>"] := by
  obtain ⟨text, ht⟩ := Option.ne_none_iff_exists'.1 (source_some exDecls_names exDecls_compiles (fun d vs hb => by
    cases d <;> cases hb
    exact ⟨_, .head _, rfl⟩) ascii ⟨lit! "N", []⟩ ExD.root)
  obtain ⟨c, hc, hp⟩ := C67_struct ascii_keeps (by decide) (fun u hu => by cases hu) rfl (exDecls_compiles.proper .root)
    (fun f _ d' _ => ⟨(exDecls_names.fresh d').2.2, fun h => (exDecls_names.fresh d').2.1 (by rw [h]; decide)⟩) exRoot_named ht
  exact ⟨text, c, ht, hc, hp.trans (by decide +kernel)⟩

/-- The classes of `Shape`: one for the enum, one for `Dot`, one for `Many`. -/
example : ∃ text c cs, source ascii ⟨lit! "N", []⟩ (exDecls.message .shape) = some text ∧ classesOf text = c :: cs ∧
    cs.map (·.name) = [lit! "Dot", lit! "Many"] ∧ cs.map (fun c => c.props.map (·.1)) = [[], [lit! "StateList<Item>"]] := by
  obtain ⟨text, ht⟩ := Option.ne_none_iff_exists'.1 (source_some exDecls_names exDecls_compiles (fun d vs hb => by
    cases d <;> cases hb
    exact ⟨_, .head _, rfl⟩) ascii ⟨lit! "N", []⟩ ExD.shape)
  have hn : Named (exDecls.message .shape) := by
    refine ⟨by decide +kernel, fun p hp => (nomatch hp), fun v hv => ?_⟩
    have hv : v ∈ [_, _] := hv
    simp only [List.mem_cons, List.not_mem_nil, or_false] at hv
    rcases hv with rfl | rfl
    · exact ⟨by decide +kernel, fun p hp => (nomatch hp), fun f hf => (nomatch hf)⟩
    · refine ⟨by decide +kernel, fun p hp => (nomatch hp), fun f hf => ?_⟩
      cases List.mem_singleton.1 hf
      exact ⟨by decide +kernel, (by decide +kernel : IsName "StateList".toList), ⟨(by decide +kernel : IsName "Item".toList), trivial⟩, trivial⟩
  obtain ⟨c, cs, hc, _, h1, h2⟩ := C67_enum ascii_keeps (by decide) (fun u hu => by cases hu) rfl
    (fun v hv f hf => exDecls_compiles.proper .shape f (List.mem_flatMap.2 ⟨v, hv, hf⟩))
    (fun _ _ f _ d' _ => ⟨(exDecls_names.fresh d').2.2, fun h => (exDecls_names.fresh d').2.1 (by rw [h]; decide)⟩) hn ht
  exact ⟨text, c, cs, ht, hc, h1.trans (by decide +kernel), h2.trans (by decide +kernel)⟩

/-- The first field of `Root` means a map of structs. -/
example : DescribesField {} (.map .u32 (.struct true true .nil))
    (fieldTypeMeta exDecls.name (.map "u32" "UInt32" .varint (.msg .item .nil))) :=
  C67_describes (S := exDecls) (ps := []) {} rfl ⟨_, _, rfl, .inl ⟨_, _, _, rfl⟩⟩ (fun h => h) (by
    simp [Proper, ProperAll, WrittenArgs.length, systemNames]; decide)

/-! ## What the conditions are for -/

/-- `struct Circle { r: u32 }` and `enum Shape { Circle(Circle) }`. -/
def shadowed : Declarations Bool where
  name b := if b then ⟨"Shape", none⟩ else ⟨"Circle", none⟩
  params _ := []
  body b := if b then .enum [⟨⟨"Shape_Circle", some "Circle"⟩, 0, [⟨⟨"0", none⟩, 0, .msg false .nil⟩]⟩]
    else .struct [⟨⟨"r", none⟩, 0, .prim "u32" "UInt32" .varint⟩]
  builtin _ := false

/-- C67, defect: a variant that holds a message of its own name, as `Shape::Circle(Circle)`. The class of the variant is nested in that of
the enum, and hides the message: the property gets the type of the variant itself. -/
theorem C67_variant_hides_message : ∃ (S : Declarations Bool) (root : RTy (Inst Bool)) (d : Bool) (f : DeclField Bool),
    OwnNames S ∧ Compiles S ∧ Fits S root ∧ InReach S root d ∧ f ∈ (S.body d).fields ∧
    (mirror f.ty).show S.name ∈ nestedNames (S.body d) ∧ ¬ Sound S (scopeOf S root d) (mirror f.ty) := by
  refine ⟨shadowed, .msg (.mk true []), true, ⟨⟨"0", none⟩, 0, .msg false .nil⟩, ⟨?_, ?_⟩, ⟨?_, ?_, ?_⟩, ?_, ⟨_, rfl, .root⟩, .head _,
    by decide +kernel, ?_⟩
  · decide
  · decide
  · decide
  · intro d p hp; cases hp
  · intro d f hf
    cases d
    · have hf : f ∈ [_] := hf
      cases List.mem_singleton.1 hf
      simp [Proper, systemNames]
    · have hf : f ∈ [_] := hf
      cases List.mem_singleton.1 hf
      simp [Proper, ProperAll, WrittenArgs.length, shadowed]
  · simp [Fits, FitsInst, FitsAll, shadowed]
  · intro h
    simp only [mirror, Sound] at h
    exact h.1.2.2.1 (by decide +kernel)

/-- C67, defect: a generic message that is called `Box` in C#. It is taken for the `Box` of Rust, and a property of type `Box<UInt32>` is
declared as `UInt32`. One called `StateMap` loses its first argument. -/
theorem C67_message_named_like_builtin (name : Bool → NameMeta) (h0 : name false = ⟨"Box", none⟩) (h1 : name true = ⟨"StateMap", none⟩) :
    let byte : Written Bool := .prim "u8" "Byte" .varint
    let bool : Written Bool := .prim "bool" "Boolean" .varint
    fieldType (fieldTypeMeta name (.msg false (.cons byte .nil))) = some (lit! "Byte") ∧
    (mirror (.msg false (.cons byte .nil))).show name = lit! "Box<Byte>" ∧
    fieldType (fieldTypeMeta name (.msg true (.cons byte (.cons bool .nil)))) = some (lit! "StateMap<Boolean>") ∧
    (mirror (.msg true (.cons byte (.cons bool .nil)))).show name = lit! "StateMap<Byte, Boolean>" := by
  simp [fieldTypeMeta, fieldTypeMetas, fieldType, fieldTypes, typeName, mirror, mirrors, CsType.show, CsTypes.showRest, Meaning.text, h0, h1,
    NameMeta.csharpName, fmt, Frag.text, joinComma]

end Steit.Gen
