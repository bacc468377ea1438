import Verif.Lemmas.ClassesLog
import Verif.Lemmas.ClassesRuns
import Verif.Props.CSharpReplay
import Verif.Props.FieldMeta

/-!
# C69: generated classes, run

C45 and C46 are about a model of the client in which generated classes do what they should for the Rust type. Here the classes are those
in the generated files: `Model/Classes.lean` runs what is read off their text. They do the same.
-/

namespace Steit.Gen

open Steit.Gen.Spec Steit.Spec

variable {D : Type} {cm : CaseMap} {setting : CSharpSetting} {S : Declarations D} {root : RTy (Inst D)} {texts : List Text}

/-! ## Values -/

theorem map_injective {α β : Type} {f : α → β} (hf : ∀ x y, f x = f y → x = y) : ∀ {xs ys : List α}, xs.map f = ys.map f → xs = ys
  | [], [], _ => rfl
  | x :: xs, y :: ys, h => by
    simp only [List.map_cons, List.cons.injEq] at h
    rw [hf x y h.1, map_injective hf h.2]

theorem variantOf_tag : ∀ {vs : Variants} {x : vs.Cs}, ∃ tag ∈ vs.tags, ∃ y, variantOf vs x = .enum tag y
  | .cons tag _ _ _, .inl _ => ⟨tag, .head _, _, by simp only [variantOf]; rfl⟩
  | .cons _ _ _ vs, .inr x => by
    obtain ⟨tag, h, y, e⟩ := variantOf_tag (vs := vs) (x := x)
    exact ⟨tag, .tail _ h, y, by simp only [variantOf]; exact e⟩

mutual
theorem valOf_injective : ∀ (t : Ty), t.WF → ∀ x y : t.Cs, valOf t x = valOf t y → x = y
  | .uint w, _, x, y, h => by simpa [valOf] using h
  | .sint w, _, x, y, h => by simpa [valOf] using h
  | .bool, _, x, y, h => by simpa [valOf] using h
  | .string, _, x, y, h => by simpa [valOf] using h
  | .bytes, _, x, y, h => by simpa [valOf] using h
  | .vec t, hw, x, y, h => by
    simp only [valOf, Val.items.injEq] at h
    exact map_injective (valOf_injective t (by simpa [Ty.WF] using hw)) h
  | .array _ t, hw, x, y, h => by
    simp only [valOf, Val.items.injEq] at h
    simp only [Ty.WF] at hw
    exact map_injective (valOf_injective t hw.2.2) h
  | .tuple _, _, _, _, _ => rfl
  | .option t, hw, x, y, h => by
    simp only [valOf, Val.opt.injEq] at h
    cases x <;> cases y <;> simp only [Option.map_some, Option.map_none, reduceCtorEq, Option.some.injEq] at h
    · rfl
    · rw [valOf_injective t (by simpa [Ty.WF] using hw) _ _ h]
  | .box t, hw, x, y, h => by
    simp only [valOf] at h
    exact valOf_injective t (by simpa [Ty.WF] using hw) x y h
  | .hashMap _ _, _, _, _, _ => rfl
  | .list t, hw, x, y, h => by
    simp only [valOf, Val.items.injEq] at h
    simp only [Ty.WF] at hw
    exact map_injective (valOf_injective t hw.2) h
  | .map _ t, hw, x, y, h => by
    simp only [valOf, Val.entries.injEq] at h
    simp only [Ty.WF] at hw
    refine map_injective (fun a b e => ?_) h
    simp only [Prod.mk.injEq] at e
    exact Prod.ext e.1 (valOf_injective t hw.2 _ _ e.2)
  | .struct _ _ fs, hw, x, y, h => by
    simp only [valOf, Val.inst.injEq] at h
    simp only [Ty.WF] at hw
    exact valsOf_injective fs hw.2 x y h
  | .enum _ _ fs vs, hw, x, y, h => by
    simp only [Ty.WF] at hw
    obtain ⟨_, hf, hn, h0, hv⟩ := hw
    match x, y, h with
    | .inl x, .inl y, h =>
      simp only [valOf, Val.enum.injEq, Val.inst.injEq, true_and] at h
      rw [valsOf_injective fs hf x y h]
    | .inl x, .inr y, h =>
      obtain ⟨tag, ht, _, e⟩ := variantOf_tag (x := y)
      simp only [valOf, e, Val.enum.injEq] at h
      exact absurd (h.1 ▸ ht) h0
    | .inr x, .inl y, h =>
      obtain ⟨tag, ht, _, e⟩ := variantOf_tag (x := x)
      simp only [valOf, e, Val.enum.injEq] at h
      exact absurd (h.1 ▸ ht) h0
    | .inr x, .inr y, h =>
      simp only [valOf] at h
      rw [variantOf_injective vs hv hn x y h]

theorem valsOf_injective : ∀ (fs : Fields) {ds : Bool}, fs.WF ds → ∀ x y : fs.Cs, valsOf fs x = valsOf fs y → x = y
  | .nil, _, _, _, _, _ => rfl
  | .cons _ _ t fs, _, hw, x, y, h => by
    simp only [valsOf, List.cons.injEq] at h
    simp only [Fields.WF] at hw
    exact Prod.ext (valOf_injective t hw.2.2.1 _ _ h.1) (valsOf_injective fs hw.2.2.2 _ _ h.2)

theorem variantOf_injective : ∀ (vs : Variants) {ds : Bool}, vs.WF ds → vs.tags.Nodup → ∀ x y : vs.Cs, variantOf vs x = variantOf vs y → x = y
  | .nil, _, _, _, x, _, _ => x.elim
  | .cons tag _ fs vs, _, hw, hn, x, y, h => by
    simp only [Variants.WF] at hw
    simp only [Variants.tags, List.nodup_cons] at hn
    match x, y, h with
    | .inl x, .inl y, h =>
      simp only [variantOf, Val.enum.injEq, Val.inst.injEq, true_and] at h
      rw [valsOf_injective fs hw.2.2.1 x y h]
    | .inl x, .inr y, h =>
      obtain ⟨tag, ht, _, e⟩ := variantOf_tag (x := y)
      simp only [variantOf, e, Val.enum.injEq] at h
      exact absurd (h.1 ▸ ht) hn.1
    | .inr x, .inl y, h =>
      obtain ⟨tag, ht, _, e⟩ := variantOf_tag (x := x)
      simp only [variantOf, e, Val.enum.injEq] at h
      exact absurd (h.1 ▸ ht) hn.1
    | .inr x, .inr y, h =>
      simp only [variantOf] at h
      rw [variantOf_injective vs hw.2.2.2 hn.2 x y h]
end

/-- C69. Different values of the client model are different values of C#. -/
theorem C69_values {t : Ty} (ht : t.WF) {x y : t.Cs} (h : valOf t x = valOf t y) : x = y := valOf_injective t ht x y h

/-! ## Running -/

/-- C69. Constructing a value of a generated class, or of a collection of these, gives what the client model says. -/
theorem C69_constructs (hR : Ready cm setting S root texts) {a : RTy (Inst D)} (ha : Reach S.program.graph.links root a) {t : Ty} {k : Nat}
    (hm : Models S k a t) (hk : k ≠ 0) {n : Nat} (hn : depth t ≤ n) :
    construct (projectOf texts) n (rt S.name a) = .ok (valOf t t.csNew) :=
  builds (projectOf texts) t k _ n hk (runs hR t hm ha) hn

/-- C69. Generated classes read every sequence of bytes, good or bad, as the client model does: the same value and the same bytes left, or
the same exception. -/
theorem C69_reads (hR : Ready cm setting S root texts) {a : RTy (Inst D)} (ha : Reach S.program.graph.links root a) {t : Ty} {k : Nat}
    (hm : Models S k a t) (ρ : Bytes → Str) (bs : Bytes) (hk : bs.length < k) {n : Nat} (hn : depth t ≤ n) :
    deserialize (projectOf texts) ρ n (rt S.name a) bs = (t.csDeserialize ρ bs).map fun (v, rest) => (valOf t v, rest) :=
  readsTy (projectOf texts) ρ t k _ n bs (fun _ => hk) (runs hR t hm ha) hn

/-- C69. Generated classes replay every log, good or bad, as the client model does. -/
theorem C69_replays (hR : Ready cm setting S root texts) {a : RTy (Inst D)} (ha : Reach S.program.graph.links root a) {t : Ty} {k : Nat}
    (hm : Models S k a t) (hp : primitive t = false) (ρ : Bytes → Str) (v : t.Cs) (bs : Bytes) (hk : 2 * bs.length < k) {n : Nat}
    (hn : depth t ≤ n) :
    replay (projectOf texts) ρ n (rt S.name a) (valOf t v) bs = (t.csReplay ρ v bs).map (valOf t) :=
  replay_runs ρ hp (runs hR t hm ha) hn bs hk v

/-- C69, with C45 and C46: a program made of the generated files that gets the bytes of the source's state, then the log of what happens
next, has in the end an object that shows the state of the source. -/
theorem C69_follows_rust_partial (hR : Ready cm setting S root texts) {a : RTy (Inst D)} (ha : Reach S.program.graph.links root a) {t : Ty} {k : Nat}
    (hmod : Models S k a t) (hp : primitive t = false) (ht : t.WF) (hm : Mirrored t) (hroot : Rooted t) (ρ : Bytes → Str) (m : Mode)
    (μ : Prog.Mem) (μ' : Nat → Prog.Mem) (id : Nat) (ops : List t.Op) (v : t.El) (w : World) (hv : At t ⟨id, []⟩ v) (hc : Carried t v)
    (hlen : (encode t v).length < 2 ^ 31) (hw : w.loggers id = ⟨0, []⟩) (hops : CallsSync t m ops v w) {n : Nat} (hn : depth t ≤ n) :
    ∃ snapshot v' w', t.dict.toBytesFrom m μ v = .ok snapshot ∧ calls t m ops v w = (.ok v', w') ∧
      ((∀ e ∈ (w'.loggers id).entries, CsFits e) → ∃ bytes, (BufferLogger.mk (w'.loggers id).entries).bytes m μ' = .ok bytes ∧
        (snapshot.length < k → 2 * bytes.length < k → ∃ o c',
          deserialize (projectOf texts) ρ n (rt S.name a) snapshot = .ok (o, []) ∧
          replay (projectOf texts) ρ n (rt S.name a) o bytes = .ok (valOf t c') ∧ Shows t v' c')) := by
  obtain ⟨snapshot, c, v', w', h1, h2, h3, h4⟩ := C46_joins_late_partial t ht hm hroot ρ m μ μ' id ops v w hv hc hlen hw hops
  refine ⟨snapshot, v', w', h1, h3, fun hfit => ?_⟩
  obtain ⟨bytes, c', h5, h6, h7⟩ := h4 hfit
  refine ⟨bytes, h5, fun hk1 hk2 => ⟨valOf t c, c', ?_, ?_, h7⟩⟩
  · rw [C69_reads hR ha hmod ρ snapshot hk1 hn, ← csDeserializeRoot_eq ρ t hroot, h2]
    rfl
  · rw [C69_replays hR ha hmod hp ρ c bytes hk2 hn, h6]
    rfl

/-! ## An example -/

theorem exDecls_reach (d : ExD) : InReach exDecls exRoot d := by
  have hroot : Reach exDecls.program.graph.links exRoot exRoot := .root
  have hmap := Reach.link hroot (n := .map "u32" (.msg (.mk .pair [.msg (.mk .item []), .option (.msg (.mk .shape []))]))) (.head _)
  have hpair := Reach.link hmap (n := .msg (.mk .pair [.msg (.mk .item []), .option (.msg (.mk .shape []))])) (.head _)
  cases d with
  | root => exact ⟨.mk .root [], rfl, hroot⟩
  | pair => exact ⟨_, rfl, hpair⟩
  | item => exact ⟨.mk .item [], rfl, .link hpair (.head _)⟩
  | shape => exact ⟨.mk .shape [], rfl, .link (.link (.link hpair (n := .vec (.option (.msg (.mk .shape [])))) (.tail _ (.head _))) (n := .option (.msg (.mk .shape []))) (.head _)) (.head _)⟩

theorem exDecls_source (d : ExD) : ∃ text, source ascii ⟨lit! "N", []⟩ (exDecls.message d) = some text :=
  Option.ne_none_iff_exists'.1 (source_some exDecls_names exDecls_compiles (fun d vs hb => by
    cases d <;> cases hb
    exact ⟨_, .head _, rfl⟩) ascii ⟨lit! "N", []⟩ d)

theorem exDecls_named (d : ExD) : Named (exDecls.message d) := by
  cases d with
  | root => exact exRoot_named
  | pair =>
    refine ⟨by decide +kernel, by decide +kernel, fun f hf => ?_⟩
    have hf : f ∈ [_, _] := hf
    simp only [List.mem_cons, List.not_mem_nil, or_false] at hf
    rcases hf with rfl | rfl <;>
      simp [DeclField.fieldMeta, fieldTypeMeta, fieldTypeMetas, Written.typeMeta, WrittenArgs.typeMetas, NamedField, NamedType, NamedArgs,
        NameMeta.csharpName, exDecls] <;> decide +kernel
  | item =>
    refine ⟨by decide +kernel, by decide +kernel, fun f hf => ?_⟩
    have hf : f ∈ [_, _] := hf
    simp only [List.mem_cons, List.not_mem_nil, or_false] at hf
    rcases hf with rfl | rfl <;>
      simp [DeclField.fieldMeta, fieldTypeMeta, fieldTypeMetas, Written.typeMeta, WrittenArgs.typeMetas, NamedField, NamedType, NamedArgs,
        NameMeta.csharpName, exDecls] <;> decide +kernel
  | shape =>
    refine ⟨by decide +kernel, fun p hp => (nomatch hp), fun v hv => ?_⟩
    have hv : v ∈ [_, _] := hv
    simp only [List.mem_cons, List.not_mem_nil, or_false] at hv
    rcases hv with rfl | rfl
    · exact ⟨by decide +kernel, fun p hp => (nomatch hp), fun f hf => (nomatch hf)⟩
    · refine ⟨by decide +kernel, fun p hp => (nomatch hp), fun f hf => ?_⟩
      cases List.mem_singleton.1 hf
      exact ⟨by decide +kernel, (by decide +kernel : IsName "StateList".toList), ⟨(by decide +kernel : IsName "Item".toList), trivial⟩, trivial⟩

theorem exDecls_clean (d : ExD) : NamesFit ascii (exDecls.message d) := by
  cases d
  case shape =>
    refine ⟨⟨by decide +kernel, by decide +kernel, by decide +kernel⟩, ⟨by decide +kernel, by decide +kernel, by decide +kernel, by decide +kernel⟩,
      fun v hv => ?_⟩
    have hv : v ∈ [_, _] := hv
    simp only [List.mem_cons, List.not_mem_nil, or_false] at hv
    rcases hv with rfl | rfl <;> exact ⟨by decide +kernel, by decide +kernel, by decide +kernel⟩
  all_goals exact ⟨⟨by decide +kernel, by decide +kernel, by decide +kernel⟩, by decide +kernel, by decide +kernel, by decide +kernel⟩

/-- The four files of the example are ready to run. -/
theorem exDecls_ready : ∃ texts, texts.length = 4 ∧ Ready ascii ⟨lit! "N", []⟩ exDecls exRoot texts := by
  obtain ⟨t1, h1⟩ := exDecls_source .root
  obtain ⟨t2, h2⟩ := exDecls_source .pair
  obtain ⟨t3, h3⟩ := exDecls_source .item
  obtain ⟨t4, h4⟩ := exDecls_source .shape
  refine ⟨[t1, t2, t3, t4], rfl, ascii_keeps, by decide, fun u hu => (nomatch hu), exDecls_names, exDecls_compiles, exRoot_fits, ?_,
    fun d _ => exDecls_clear d, fun d _ => exDecls_named d, fun d _ => exDecls_clean d, ?_, ?_⟩
  · intro d vs _ hb
    cases d <;> first | rfl | cases hb
  · intro t ht
    simp only [List.mem_cons, List.not_mem_nil, or_false] at ht
    rcases ht with rfl | rfl | rfl | rfl
    · exact ⟨_, exDecls_reach _, h1⟩
    · exact ⟨_, exDecls_reach _, h2⟩
    · exact ⟨_, exDecls_reach _, h3⟩
    · exact ⟨_, exDecls_reach _, h4⟩
  · intro d _
    cases d with
    | root => exact ⟨t1, by simp, h1⟩
    | pair => exact ⟨t2, by simp, h2⟩
    | item => exact ⟨t3, by simp, h3⟩
    | shape => exact ⟨t4, by simp, h4⟩

/-- `Item`. -/
def exItem : Ty := .struct true true (.cons 0#32 {} (.uint .w32) (.cons 1#32 { noState := true } .string .nil))

/-- `Shape`. -/
def exShape : Ty := .enum true true .nil (.cons 1#32 true (.cons 0#32 {} (.list exItem) .nil) .nil)

/-- `Root`, unrolled. -/
def exUnrolled : Nat → Ty
  | 0 => .struct true true .nil
  | k + 1 => .struct true true (.cons 0#32 {} (.map .u32 (.struct true true (.cons 0#32 { param := true } exItem (.cons 1#32 { noState := true } (.vec (.option exShape)) .nil))))
      (.cons 1#32 { noState := true } (.array 3 .bytes) (.cons 2#32 { noState := true } (.option (.box (exUnrolled k))) (.cons 3#32 { noState := true } (.vec (.uint .w16)) .nil))))

theorem exItem_models (k : Nat) : Models exDecls k (.msg (.mk .item [])) exItem :=
  ⟨.item, [], rfl, fun _ => ⟨_, rfl, ⟨_, _, rfl, rfl, rfl, trivial, fun h => h, ⟨_, _, _, rfl, rfl⟩,
    ⟨_, _, rfl, rfl, rfl, trivial, fun h => h, ⟨_, _, _, rfl, rfl⟩, rfl⟩⟩, by decide⟩⟩

theorem exShape_models (k : Nat) : Models exDecls k (.msg (.mk .shape [])) exShape :=
  ⟨.shape, [], rfl, fun _ => ⟨_, rfl, by decide, by decide, ⟨_, .head _, rfl, rfl, by decide⟩,
    ⟨_, .tail _ (.head _), rfl, ⟨_, _, rfl, rfl, rfl, trivial, fun h => h, ⟨_, rfl, exItem_models _⟩, rfl⟩, by decide⟩, trivial⟩⟩

theorem exUnrolled_models : ∀ k : Nat, Models exDecls k exRoot (exUnrolled k)
  | 0 => ⟨.root, [], rfl, fun h => absurd rfl h⟩
  | k + 1 => ⟨.root, [], rfl, fun _ => ⟨_, rfl,
      ⟨_, _, rfl, rfl, rfl, trivial, fun h => h, ⟨_, _, rfl, .pair, _, rfl, fun _ => ⟨_, rfl,
          ⟨_, _, rfl, rfl, rfl, rfl, fun h => h, exItem_models _,
            ⟨_, _, rfl, rfl, rfl, trivial, fun h => h, ⟨_, rfl, _, rfl, exShape_models _⟩, rfl⟩⟩, by decide⟩⟩,
        ⟨_, _, rfl, rfl, rfl, trivial, fun h => h, ⟨_, rfl, rfl⟩,
          ⟨_, _, rfl, rfl, rfl, trivial, fun h => h, ⟨_, rfl, _, rfl, exUnrolled_models k⟩,
            ⟨_, _, rfl, rfl, rfl, trivial, fun h => h, ⟨_, rfl, _, _, _, rfl, rfl⟩, rfl⟩⟩⟩⟩, by simp only [Fields.tags]; decide⟩⟩

/-- Not vacuous: the generated files of the example, on any bytes, read or replayed. -/
example : ∃ texts : List Text, texts.length = 4 ∧ ∀ (ρ : Bytes → Str) (bs : Bytes), ∃ n,
    deserialize (projectOf texts) ρ n (.message (lit! "Root") []) bs =
      ((exUnrolled (2 * bs.length + 1)).csDeserialize ρ bs).map (fun (v, rest) => (valOf (exUnrolled (2 * bs.length + 1)) v, rest)) ∧
    construct (projectOf texts) n (.message (lit! "Root") []) =
      .ok (valOf (exUnrolled (2 * bs.length + 1)) (exUnrolled (2 * bs.length + 1)).csNew) ∧
    ∀ v, replay (projectOf texts) ρ n (.message (lit! "Root") []) (valOf _ v) bs =
      ((exUnrolled (2 * bs.length + 1)).csReplay ρ v bs).map (valOf _) := by
  obtain ⟨texts, hl, hR⟩ := exDecls_ready
  refine ⟨texts, hl, fun ρ bs => ⟨depth (exUnrolled (2 * bs.length + 1)), ?_, ?_, fun v => ?_⟩⟩
  · exact C69_reads hR .root (exUnrolled_models _) ρ bs (by omega) (Nat.le_refl _)
  · exact C69_constructs hR .root (exUnrolled_models _) (by omega) (Nat.le_refl _)
  · exact C69_replays hR .root (exUnrolled_models _) rfl ρ v bs (by omega) (Nat.le_refl _)

/-- The messages of a program for the history of C24 and C46. -/
inductive HandD
  | hand | mood

/-- `struct Hand { cards: List<u8>, piles: Map<u8, List<u8>>, mood: Mood }`, `enum Mood { Calm { level: u32 }, Angry { #[steit(tag = 5)] marks: List<u8> } }`. -/
def handDecls : Declarations HandD where
  name
    | .hand => ⟨"Hand", none⟩
    | .mood => ⟨"Mood", none⟩
  params _ := []
  body
    | .hand => .struct [⟨⟨"cards", none⟩, 0, .list (.prim "u8" "Byte" .varint)⟩,
        ⟨⟨"piles", none⟩, 1, .map "u8" "Byte" .varint (.list (.prim "u8" "Byte" .varint))⟩, ⟨⟨"mood", none⟩, 2, .msg .mood .nil⟩]
    | .mood => .enum [⟨⟨"Mood_Calm", some "Calm"⟩, 0, [⟨⟨"level", none⟩, 0, .prim "u32" "UInt32" .varint⟩]⟩,
        ⟨⟨"Mood_Angry", some "Angry"⟩, 1, [⟨⟨"marks", none⟩, 5, .list (.prim "u8" "Byte" .varint)⟩]⟩]
  builtin _ := false

theorem handDecls_names : OwnNames handDecls where
  distinct d d' := by cases d <;> cases d' <;> first | (intro _; rfl) | (intro h; exact absurd h (by decide))
  fresh d := by cases d <;> decide

theorem handDecls_compiles : Compiles handDecls where
  nodup d := by cases d <;> decide
  used d p hp := nomatch hp
  proper d f hf := by
    cases d <;> simp only [handDecls, Body.fields, List.flatMap_cons, List.flatMap_nil, List.append_nil, List.cons_append, List.nil_append,
      List.mem_cons, List.not_mem_nil, or_false] at hf
    · rcases hf with rfl | rfl | rfl <;> simp [Proper, ProperAll, WrittenArgs.length, systemNames]; decide
    · rcases hf with rfl | rfl <;> simp [Proper, systemNames]

theorem handDecls_clear (d : HandD) : Clear handDecls d where
  free := by cases d <;> decide +kernel
  distinct x hx f hf d' hd' := by
    cases d <;> simp only [handDecls, Body.fields, nestedNames, List.flatMap_cons, List.flatMap_nil, List.append_nil, List.cons_append, List.nil_append,
      List.mem_cons, List.not_mem_nil, or_false, List.map_cons, List.map_nil] at hf hx
    rcases hf with rfl | rfl <;> simp [Mentions] at hd'

theorem handDecls_named (d : HandD) : Named (handDecls.message d) := by
  cases d with
  | hand =>
    refine ⟨by decide +kernel, by decide +kernel, fun f hf => ?_⟩
    have hf : f ∈ [_, _, _] := hf
    simp only [List.mem_cons, List.not_mem_nil, or_false] at hf
    rcases hf with rfl | rfl | rfl <;>
      simp [DeclField.fieldMeta, fieldTypeMeta, fieldTypeMetas, Written.typeMeta, WrittenArgs.typeMetas, NamedField, NamedType, NamedArgs,
        NameMeta.csharpName, handDecls] <;> decide +kernel
  | mood =>
    refine ⟨by decide +kernel, fun p hp => (nomatch hp), fun v hv => ?_⟩
    have hv : v ∈ [_, _] := hv
    simp only [List.mem_cons, List.not_mem_nil, or_false] at hv
    rcases hv with rfl | rfl <;> refine ⟨by decide +kernel, fun p hp => (nomatch hp), fun f hf => ?_⟩ <;> cases List.mem_singleton.1 hf <;>
      simp [DeclField.fieldMeta, fieldTypeMeta, fieldTypeMetas, Written.typeMeta, WrittenArgs.typeMetas, NamedField, NamedType, NamedArgs,
        NameMeta.csharpName, handDecls] <;> decide +kernel

theorem handDecls_clean (d : HandD) : NamesFit ascii (handDecls.message d) := by
  cases d with
  | mood =>
    refine ⟨⟨by decide +kernel, by decide +kernel, by decide +kernel⟩, ⟨by decide +kernel, by decide +kernel, by decide +kernel, by decide +kernel⟩,
      fun v hv => ?_⟩
    have hv : v ∈ [_, _] := hv
    simp only [List.mem_cons, List.not_mem_nil, or_false] at hv
    rcases hv with rfl | rfl <;> exact ⟨by decide +kernel, by decide +kernel, by decide +kernel⟩
  | hand => exact ⟨⟨by decide +kernel, by decide +kernel, by decide +kernel⟩, by decide +kernel, by decide +kernel, by decide +kernel⟩

theorem handDecls_source (d : HandD) : ∃ text, source ascii ⟨lit! "N", []⟩ (handDecls.message d) = some text :=
  Option.ne_none_iff_exists'.1 (source_some handDecls_names handDecls_compiles (fun d vs hb => by
    cases d <;> cases hb
    exact ⟨_, .head _, rfl⟩) ascii ⟨lit! "N", []⟩ d)

theorem handDecls_reach (d : HandD) : InReach handDecls (.msg (.mk .hand [])) d := by
  cases d with
  | hand => exact ⟨.mk .hand [], rfl, .root⟩
  | mood => exact ⟨.mk .mood [], rfl, .link .root (.tail _ (.tail _ (.head _)))⟩

theorem handDecls_ready : ∃ texts, Ready ascii ⟨lit! "N", []⟩ handDecls (.msg (.mk .hand [])) texts := by
  obtain ⟨t1, h1⟩ := handDecls_source .hand
  obtain ⟨t2, h2⟩ := handDecls_source .mood
  refine ⟨[t1, t2], ascii_keeps, by decide, fun u hu => (nomatch hu), handDecls_names, handDecls_compiles,
    by simp [Spec.Fits, FitsInst, FitsAll, handDecls], fun _ _ _ _ => rfl,
    fun d _ => handDecls_clear d, fun d _ => handDecls_named d, fun d _ => handDecls_clean d, ?_, ?_⟩
  · intro t ht
    simp only [List.mem_cons, List.not_mem_nil, or_false] at ht
    rcases ht with rfl | rfl
    · exact ⟨_, handDecls_reach _, h1⟩
    · exact ⟨_, handDecls_reach _, h2⟩
  · intro d _
    cases d with
    | hand => exact ⟨t1, by simp, h1⟩
    | mood => exact ⟨t2, by simp, h2⟩

theorem hTy_models (k : Nat) : Models handDecls k (.msg (.mk .hand [])) hTy :=
  ⟨.hand, [], rfl, fun _ => ⟨_, rfl, ⟨_, _, rfl, rfl, rfl, trivial, fun h => h, ⟨_, rfl, _, _, _, rfl, rfl⟩,
    ⟨_, _, rfl, rfl, rfl, trivial, fun h => h, ⟨_, _, rfl, _, rfl, _, _, _, rfl, rfl⟩,
      ⟨_, _, rfl, rfl, rfl, trivial, fun h => h, ⟨.mood, [], rfl, fun _ => ⟨_, rfl, by decide, by decide,
        ⟨_, .head _, rfl, ⟨_, _, rfl, rfl, rfl, trivial, fun h => h, ⟨_, _, _, rfl, rfl⟩, rfl⟩, by decide⟩,
        ⟨_, .tail _ (.head _), rfl, ⟨_, _, rfl, rfl, rfl, trivial, fun h => h, ⟨_, rfl, _, _, _, rfl, rfl⟩, rfl⟩, by decide⟩, trivial⟩⟩, rfl⟩⟩⟩,
    by decide⟩⟩

/-- Not vacuous: the history of C24's example, followed by the generated files of `Hand` and `Mood`. -/
example : ∃ texts : List Text, ∀ (ρ : Bytes → Str) (μ : Prog.Mem) (μ' : Nat → Prog.Mem), ∃ snapshot bytes v' w' o c',
    calls hTy .debug hOps (hVal [] [] (hA 0)) hWorld = (.ok v', w') ∧
    hTy.dict.toBytesFrom .debug μ (hVal [] [] (hA 0)) = .ok snapshot ∧
    (BufferLogger.mk (w'.loggers 4).entries).bytes .debug μ' = .ok bytes ∧ (w'.loggers 4).entries.length = 7 ∧
    deserialize (projectOf texts) ρ (depth hTy) (.message (lit! "Hand") []) snapshot = .ok (o, []) ∧
    replay (projectOf texts) ρ (depth hTy) (.message (lit! "Hand") []) o bytes = .ok (valOf hTy c') ∧ Shows hTy v' c' := by
  obtain ⟨texts, hR⟩ := handDecls_ready
  refine ⟨texts, fun ρ μ μ' => ?_⟩
  have key := fun k => C69_follows_rust_partial hR .root (hTy_models k) rfl hTy_wf hTy_mirrored trivial ρ .debug μ μ' 4 hOps
    (hVal [] [] (hA 0)) hWorld (hVal_at 4) ((carried_init hTy).1 ⟨4, []⟩) (by decide +kernel) rfl (hOps_ok hWorld) (Nat.le_refl _)
  obtain ⟨snapshot, v', w', h1, h2, h3⟩ := key 0
  have he : (w'.loggers 4).entries = ((calls hTy .debug hOps (hVal [] [] (hA 0)) hWorld).2.loggers 4).entries := by rw [h2]
  have hfit : ∀ e ∈ (w'.loggers 4).entries, CsFits e := by
    rw [he]
    unfold CsFits
    decide +kernel
  obtain ⟨bytes, h4, _⟩ := h3 hfit
  obtain ⟨snapshot', v'', w'', h1', h2', h3'⟩ := key (snapshot.length + 2 * bytes.length + 1)
  cases h1.symm.trans h1'
  cases h2.symm.trans h2'
  obtain ⟨bytes', h4', h5⟩ := h3' hfit
  cases h4.symm.trans h4'
  obtain ⟨o, c', h6, h7, h8⟩ := h5 (by omega) (by omega)
  refine ⟨snapshot, bytes, v', w', o, c', h2, h1, h4, ?_, h6, h7, h8⟩
  rw [he]
  decide +kernel

/-! ## Log entries -/

/-- `LogEntry`, `steit/src/log/entry.rs:19-48`. -/
def logDecls : Declarations Unit where
  name _ := ⟨"LogEntry", none⟩
  params _ := []
  body _ := .enum [
    ⟨⟨"Update", none⟩, 0, [⟨⟨"path", some "flatten_path"⟩, 0, .vec (.prim "u32" "UInt32" .varint)⟩, ⟨⟨"value", none⟩, 1, .bytes⟩]⟩,
    ⟨⟨"ListPush", none⟩, 8, [⟨⟨"path", some "flatten_path"⟩, 0, .vec (.prim "u32" "UInt32" .varint)⟩, ⟨⟨"item", none⟩, 1, .bytes⟩]⟩,
    ⟨⟨"ListPop", none⟩, 9, [⟨⟨"path", some "flatten_path"⟩, 0, .vec (.prim "u32" "UInt32" .varint)⟩]⟩,
    ⟨⟨"MapRemove", none⟩, 12, [⟨⟨"path", some "flatten_path"⟩, 0, .vec (.prim "u32" "UInt32" .varint)⟩,
      ⟨⟨"key", none⟩, 1, .prim "u32" "UInt32" .varint⟩]⟩]
  builtin _ := true

theorem logDecls_names : OwnNames logDecls where
  distinct _ _ _ := rfl
  fresh d := by cases d; decide

theorem logDecls_compiles : Compiles logDecls where
  nodup d := by cases d; decide
  used _ _ hp := nomatch hp
  proper d f hf := by
    simp only [logDecls, Body.fields, List.flatMap_cons, List.flatMap_nil, List.append_nil, List.cons_append, List.nil_append,
      List.mem_cons, List.not_mem_nil, or_false] at hf
    rcases hf with rfl | rfl | rfl | rfl | rfl | rfl | rfl <;> simp [Proper, systemNames]

theorem logDecls_named : Named (logDecls.message ()) := by
  refine ⟨by decide +kernel, fun p hp => (nomatch hp), fun v hv => ?_⟩
  have hv : v ∈ [_, _, _, _] := hv
  simp only [List.mem_cons, List.not_mem_nil, or_false] at hv
  rcases hv with rfl | rfl | rfl | rfl <;> refine ⟨by decide +kernel, fun p hp => (nomatch hp), fun f hf => ?_⟩ <;>
    simp only [List.map_cons, List.map_nil, List.mem_cons, List.not_mem_nil, or_false] at hf
  case inr.inr.inl =>
    subst hf
    simp [DeclField.fieldMeta, fieldTypeMeta, fieldTypeMetas, NamedField, NamedType, NamedArgs, NameMeta.csharpName]
    decide +kernel
  all_goals
    rcases hf with rfl | rfl <;>
      simp [DeclField.fieldMeta, fieldTypeMeta, fieldTypeMetas, NamedField, NamedType, NamedArgs, NameMeta.csharpName] <;> decide +kernel

theorem logDecls_clean : NamesFit ascii (logDecls.message ()) := by
  refine ⟨⟨by decide +kernel, by decide +kernel, by decide +kernel⟩, ⟨by decide +kernel, by decide +kernel, by decide +kernel, by decide +kernel⟩,
    fun v hv => ?_⟩
  have hv : v ∈ [_, _, _, _] := hv
  simp only [List.mem_cons, List.not_mem_nil, or_false] at hv
  rcases hv with rfl | rfl | rfl | rfl <;> exact ⟨by decide +kernel, by decide +kernel, by decide +kernel⟩

theorem logDecls_models (k : Nat) : Models logDecls k (.msg (.mk () [])) logEntryTy :=
  ⟨(), [], rfl, fun _ => ⟨_, rfl, by decide, by decide,
    ⟨_, .head _, rfl, ⟨_, _, rfl, rfl, rfl, trivial, fun h => h, ⟨_, rfl, _, _, _, rfl, rfl⟩,
      ⟨_, _, rfl, rfl, rfl, trivial, fun h => h, rfl, rfl⟩⟩, by decide⟩,
    ⟨_, .tail _ (.head _), rfl, ⟨_, _, rfl, rfl, rfl, trivial, fun h => h, ⟨_, rfl, _, _, _, rfl, rfl⟩,
      ⟨_, _, rfl, rfl, rfl, trivial, fun h => h, rfl, rfl⟩⟩, by decide⟩,
    ⟨_, .tail _ (.tail _ (.head _)), rfl, ⟨_, _, rfl, rfl, rfl, trivial, fun h => h, ⟨_, rfl, _, _, _, rfl, rfl⟩, rfl⟩, by decide⟩,
    ⟨_, .tail _ (.tail _ (.tail _ (.head _))), rfl, ⟨_, _, rfl, rfl, rfl, trivial, fun h => h, ⟨_, rfl, _, _, _, rfl, rfl⟩,
      ⟨_, _, rfl, rfl, rfl, trivial, fun h => h, ⟨_, _, _, rfl, rfl⟩, rfl⟩⟩, by decide⟩, trivial⟩⟩

/-- C69. The class generated for log entries (in the repository, `steit-csharp/src/State/LogEntry.cs`), run, reads them as the client model does
everywhere else here (`replayStepAt`). -/
theorem C69_log_entries : ∃ text, source ascii ⟨lit! "Steit.State", []⟩ (logDecls.message ()) = some text ∧ ∀ (ρ : Bytes → Str) (bs : Bytes),
    deserialize (projectOf [text]) ρ (depth logEntryTy) (.message (lit! "LogEntry") []) bs =
      (logEntryTy.csDeserialize ρ bs).map fun (e, rest) => (valOf logEntryTy e, rest) := by
  obtain ⟨text, ht⟩ := Option.ne_none_iff_exists'.1 (source_some logDecls_names logDecls_compiles (fun d vs hb => by
    cases hb
    exact ⟨_, .head _, rfl⟩) ascii ⟨lit! "Steit.State", []⟩ ())
  have hreach : InReach logDecls (.msg (.mk () [])) () := ⟨.mk () [], rfl, .root⟩
  have hR : Ready ascii ⟨lit! "Steit.State", []⟩ logDecls (.msg (.mk () [])) [text] := by
    refine ⟨ascii_keeps, by decide, fun u hu => (nomatch hu), logDecls_names, logDecls_compiles,
      by simp [Spec.Fits, FitsInst, FitsAll, logDecls], fun _ _ _ _ => rfl, fun d _ => ⟨by cases d; decide +kernel, fun x hx f hf d' hd' => ?_⟩,
      fun _ _ => logDecls_named, fun _ _ => logDecls_clean, fun t h => ⟨(), hreach, ?_⟩, fun _ _ => ⟨text, .head _, ht⟩⟩
    · simp only [logDecls, Body.fields, List.flatMap_cons, List.flatMap_nil, List.append_nil, List.cons_append, List.nil_append,
        List.mem_cons, List.not_mem_nil, or_false] at hf
      rcases hf with rfl | rfl | rfl | rfl | rfl | rfl | rfl <;> simp [Mentions] at hd'
    · rw [List.mem_singleton.1 h]
      exact ht
  exact ⟨text, ht, fun ρ bs => C69_reads hR .root (logDecls_models (bs.length + 1)) ρ bs (Nat.lt_succ_self _) (Nat.le_refl _)⟩

/-! ## Type parameters -/

/-- C67. The class of a message has the name and the type parameters of its declaration. -/
theorem C67_parameters (hk : KeepsNames cm) (hn : IsName setting.namespace') (hu : ∀ u ∈ setting.usedNamespaces, IsName u) {d : D}
    (hname : IsIdent (S.name d).csharpName.toList) (hp : ∀ p ∈ S.params d, IsIdent p.toList) (hm : Named (S.message d)) {text : Text}
    (h : source cm setting (S.message d) = some text) :
    ∃ c cs, classesOf text = c :: cs ∧ bare c.name = (S.name d).csharpName.toList ∧ paramsOf c.name = (S.params d).map String.toList := by
  cases hb : S.body d with
  | struct fields =>
    simp only [Declarations.message, hb] at hm h
    obtain ⟨cfs, _, hc⟩ := classes_struct hk hn hu hm h
    exact ⟨_, _, hc, bare_typeName hname.2.1 _, paramsOf_typeName hname.2.1 hp⟩
  | enum variants =>
    simp only [Declarations.message, hb] at hm h
    obtain ⟨dflt, cs, _, _, hc⟩ := classes_enum hk hn hu hm h
    exact ⟨_, _, hc, bare_typeName hname.2.1 _, paramsOf_typeName hname.2.1 hp⟩

/-- The class of `Pair`. -/
example : ∃ text c, source ascii ⟨lit! "N", []⟩ (exDecls.message .pair) = some text ∧ classesOf text = [c] ∧
    bare c.name = lit! "Pair" ∧ paramsOf c.name = [lit! "A", lit! "B"] := by
  obtain ⟨text, ht⟩ := exDecls_source .pair
  obtain ⟨c, cs, hc, h1, h2⟩ := C67_parameters (S := exDecls) (setting := ⟨lit! "N", []⟩) ascii_keeps (by decide) (fun u hu => (nomatch hu))
    (d := .pair) (by decide +kernel) (by decide +kernel) (exDecls_named .pair) ht
  obtain ⟨cfs, _, hc'⟩ := classes_struct (setting := ⟨lit! "N", []⟩) ascii_keeps (by decide) (fun u hu => (nomatch hu)) (exDecls_named .pair) ht
  cases hc.symm.trans hc'
  exact ⟨text, _, ht, hc, h1, h2⟩

/-! ## Generic enums -/

/-- C69 is not so for enums with type parameters. Their class has static methods, one for each variant, that return a type written
without type arguments; unless there happens to be a class with this name and no type parameters, there is no such type. -/
theorem C69_generic_enum (hk : KeepsNames cm) (hn : IsName setting.namespace') (hu : ∀ u ∈ setting.usedNamespaces, IsName u) {e : EnumMeta}
    (he : Named (.enum e)) (hi : IdentEnum cm e) {text : Text} (h : source cm setting (.enum e) = some text) :
    ∃ c cs, classesOf text = c :: cs ∧
      (∀ v ∈ e.variants, (8, ⟨lit! "public", .method, lit! "static " ++ e.name.csharpName.toList, lit! "New" ++ (variantName cm v).2⟩) ∈ outline text) ∧
      (e.name.csharpName.toList ∉ e.typeParams.map String.toList →
        e.name.csharpName.toList ∉ e.variants.map (fun v => v.ty.name.csharpName.toList) →
        primOf e.name.csharpName.toList = none → libraryArity e.name.csharpName.toList ≠ some 0 →
        ∀ P : Project, P.find e.name.csharpName.toList 0 = none → ∀ args, readType P ⟨c, cs⟩ args e.name.csharpName.toList = none) := by
  obtain ⟨dflt, cs', _, hv, hc'⟩ := classes_enum hk hn hu he h
  obtain ⟨c, cs, hc, _, ho⟩ := C68_enum hk hn hu he hi h
  have hcc := hc'.symm.trans hc
  simp only [List.cons.injEq] at hcc
  obtain ⟨rfl, rfl⟩ := hcc
  refine ⟨_, _, hc, fun v hm => ?_, fun h1 h2 h3 h4 P h5 args => ?_⟩
  · rw [ho]
    refine List.mem_append_left _ (.tail _ (List.mem_map.2 ⟨_, ?_, rfl⟩))
    have hb : bare (enumClassFor (e.name.csharpName.toList ++ typeParams e.typeParams) dflt e.variants).name = e.name.csharpName.toList :=
      bare_typeName hi.name.2.1 _
    refine List.mem_append_left _ (List.mem_append_left _ (List.mem_append_left _ (List.mem_append_right _ ?_)))
    rw [hb]
    exact List.mem_map.2 ⟨_, List.mem_map.2 ⟨v, hm, rfl⟩, rfl⟩
  · have hl : look P ⟨enumClassFor (e.name.csharpName.toList ++ typeParams e.typeParams) dflt e.variants, cs'⟩ args e.name.csharpName.toList [] =
        none := by
      simp only [look]
      rw [argFor_none (by
        rw [show paramsOf (enumClassFor (e.name.csharpName.toList ++ typeParams e.typeParams) dflt e.variants).name = _ from
          paramsOf_typeName hi.name.2.1 hi.params]
        exact h1), if_neg (by rw [variantClasses_names hv]; exact h2), if_neg (by simp [h5]), if_neg (by simp [h3]), if_neg h4]
    obtain ⟨h6, h7⟩ := name_taken (x := e.name.csharpName.toList) (rest := []) (fun c hc => by
      unfold isTypePunct
      simp only [Bool.or_eq_false_iff, beq_eq_false_iff_ne]
      exact ⟨⟨fun e => hi.name.2.1 (e ▸ hc), fun e => hi.name.2.2.1 (e ▸ hc)⟩, fun e => hi.name.2.2.2 (e ▸ hc)⟩) fun _ _ e => nomatch e
    rw [List.append_nil] at h6 h7
    simp only [readType, readTypeAt, h6, h7, hl]
    rfl

/-- `enum Maybe<T> { None, Some(T) }`, `steit-derive/test-crate/src/lib.rs:50-56`. -/
def exMaybe : EnumMeta :=
  ⟨⟨"Maybe", none⟩, ["T"], [⟨⟨⟨"None", none⟩, [], [], false⟩, 0#32⟩,
    ⟨⟨⟨"Some", none⟩, [], [⟨⟨"f0", none⟩, .typeParam "T", 0#32⟩], false⟩, 1#32⟩], false⟩

theorem exMaybe_named : Named (.enum exMaybe) := by
  refine ⟨by decide +kernel, by decide +kernel, fun v hv => ?_⟩
  simp only [exMaybe, List.mem_cons, List.not_mem_nil, or_false] at hv
  rcases hv with rfl | rfl
  · exact ⟨by decide +kernel, fun p hp => (nomatch hp), fun f hf => (nomatch hf)⟩
  · refine ⟨by decide +kernel, by decide +kernel, fun f hf => ?_⟩
    cases List.mem_singleton.1 hf
    exact ⟨by decide +kernel, (by decide +kernel : IsName "T".toList)⟩

theorem exMaybe_ident : IdentEnum ascii exMaybe := ⟨by decide +kernel, by decide +kernel, by decide +kernel⟩

/-- The file of `Maybe<T>` (in the repository, `steit-csharp/src/Builtins/Maybe.cs`, lines 36-37). -/
theorem C69_false_generic_enum : ∃ text c cs, source ascii ⟨lit! "N", []⟩ (.enum exMaybe) = some text ∧ classesOf text = c :: cs ∧
    (8, ⟨lit! "public", .method, lit! "static Maybe", lit! "NewNone"⟩) ∈ outline text ∧
    ∀ args, readType (projectOf [text]) ⟨c, cs⟩ args (lit! "Maybe") = none := by
  have hsome : source ascii ⟨lit! "N", []⟩ (.enum exMaybe) ≠ none :=
    (C49_generates_iff _ _ _).2 ⟨⟨_, .head _, rfl⟩, fun v hv f hf => by
      simp only [exMaybe, List.mem_cons, List.not_mem_nil, or_false] at hv
      rcases hv with rfl | rfl
      · cases hf
      · cases List.mem_singleton.1 hf; trivial⟩
  obtain ⟨text, ht⟩ := Option.ne_none_iff_exists'.1 hsome
  have he := exMaybe_named
  have hi := exMaybe_ident
  obtain ⟨c, cs, hc, h1, h2⟩ := C69_generic_enum (setting := ⟨lit! "N", []⟩) ascii_keeps (by decide) (fun u hu => (nomatch hu)) he hi ht
  refine ⟨text, c, cs, ht, hc, h1 _ (.head _), fun args => ?_⟩
  refine h2 (by decide +kernel) (by decide +kernel) (by decide +kernel) (by decide +kernel) _ ?_ args
  obtain ⟨dflt, cs', _, _, hc'⟩ := classes_enum (setting := ⟨lit! "N", []⟩) ascii_keeps (by decide) (fun u hu => (nomatch hu)) he ht
  have hp : paramsOf (exMaybe.name.csharpName.toList ++ typeParams exMaybe.typeParams) = [lit! "T"] :=
    paramsOf_typeName hi.name.2.1 hi.params
  simp only [projectOf, List.filterMap_cons, List.filterMap_nil, hc', Project.find]
  refine List.find?_eq_none.2 fun f hf => ?_
  cases List.mem_singleton.1 hf
  simp only [enumClassFor, hp]
  simp

end Steit.Gen
