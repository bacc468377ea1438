import Verif.Lemmas.TablesGen
import Verif.Lemmas.CSharpDecode

/-!
# What the tables of generated classes answer
-/

namespace Steit.Gen

open Steit.Gen.Spec Steit.Spec

set_option maxRecDepth 8192

/-! ## Looking up -/

theorem at_some {α : Type} {g : α → Option (Nat × Text)} {x : α} {k : Nat} {s : Text} (hg : g x = some (k, s)) (xs : List α)
    (d : Option Text) (n : Nat) :
    Switch.at ⟨(x :: xs).filterMap g, d⟩ n = if n = k then some s else Switch.at ⟨xs.filterMap g, d⟩ n := by
  simp only [Switch.at, List.filterMap_cons, hg, List.lookup_cons]
  by_cases h : n = k
  · subst h; simp
  · have : (n == k) = false := by simpa using h
    simp [this, h]

theorem at_none {α : Type} {g : α → Option (Nat × Text)} {x : α} (hg : g x = none) (xs : List α) (d : Option Text) (n : Nat) :
    Switch.at ⟨(x :: xs).filterMap g, d⟩ n = Switch.at ⟨xs.filterMap g, d⟩ n := by
  simp only [Switch.at, List.filterMap_cons, hg]

theorem at_absent {α : Type} {g : α → Option (Nat × Text)} {tag : α → Nat} (hg : ∀ x e, g x = some e → e.1 = tag x) {n : Nat}
    (d : Text) : ∀ {xs : List α}, (∀ x ∈ xs, tag x ≠ n) → Switch.at ⟨xs.filterMap g, some d⟩ n = some d
  | [], _ => rfl
  | x :: xs, h => by
    have ih := at_absent hg d fun y hy => h y (List.mem_cons_of_mem _ hy)
    cases hx : g x with
    | none => rw [at_none hx]; exact ih
    | some e =>
      obtain ⟨k, s⟩ := e
      rw [at_some hx, if_neg, ih]
      have := hg x _ hx
      simp only at this
      rw [this]
      exact fun he => h x List.mem_cons_self he.symm

/-! ## Single fields -/

/-- A field of the generator for a field of a message. -/
structure Drawn (isState : Text → Bool) (attrs : FieldAttrs) (t : Ty) (f : CSharpField) : Prop where
  described : DescribesField attrs t f.data.ty
  type : fieldType f.data.ty = some f.typeName
  ok : FieldOk f
  good : GoodField attrs t
  told : ∀ p, f.data.ty = .typeParam p → isState p.toList = !primitive t

theorem wire_not_primitive : ∀ {t : Ty}, primitive t = false → wireOf t ≠ 0 := fun {t} h hw => by
  rw [primitive_wire t hw] at h; cases h

theorem wire_primitive : ∀ {t : Ty}, primitive t = true → textual t = false → wireOf t = 0
  | .uint _, _, _ => rfl
  | .sint _, _, _ => rfl
  | .bool, _, _ => rfl
  | .box t, hp, ht => wire_primitive (t := t) hp ht
  | .string, _, ht => by cases ht
  | .bytes, hp, _ => by cases hp
  | .vec _, hp, _ => by cases hp
  | .array _ _, hp, _ => by cases hp
  | .tuple _, hp, _ => by cases hp
  | .option _, hp, _ => by cases hp
  | .hashMap _ _, hp, _ => by cases hp
  | .list _, hp, _ => by cases hp
  | .map _ _, hp, _ => by cases hp
  | .struct _ _ _, hp, _ => by cases hp
  | .enum _ _ _ _, hp, _ => by cases hp

/-- The three kinds of fields. -/
inductive Kind (isState : Text → Bool) (attrs : FieldAttrs) (t : Ty) (f : CSharpField) : Prop
  | param (p : String) (hm : f.data.ty = .typeParam p) (ha : attrs.param = true) (ht : f.typeName = p.toList)
      (hw : (if isState p.toList then WireType.sized else .varint) = if wireOf t = 0 then .varint else .sized)
  | prim (name : NameMeta) (wire : WireType) (hm : f.data.ty = .type (.primitive name wire)) (ha : attrs.param = false)
      (hp : primitive t = true) (ht : f.typeName = readMethod t) (hw : wire = if wireOf t = 0 then .varint else .sized)
  | state (name : NameMeta) (args : TypeArgs) (hm : f.data.ty = .type (.ref name args)) (ha : attrs.param = false)
      (hp : primitive t = false)

variable {isState : Text → Bool} {attrs : FieldAttrs} {t : Ty} {f : CSharpField}

theorem Drawn.kind (h : Drawn isState attrs t f) : Kind isState attrs t f := by
  have hd := h.described
  have hg := h.good
  have hty := h.type
  unfold DescribesField at hd
  unfold GoodField at hg
  split at hd
  · rename_i ha
    rw [if_pos ha] at hg
    obtain ⟨p, hm⟩ := hd
    rw [hm] at hty
    simp only [fieldType, Option.some.injEq] at hty
    refine .param p hm ha hty.symm ?_
    rw [h.told p hm]
    cases hp : primitive t with
    | true => rw [if_pos (wire_primitive hp hg)]; rfl
    | false => rw [if_neg (wire_not_primitive hp)]; rfl
  · rename_i ha
    rw [if_neg ha] at hg
    have ha : attrs.param = false := by simpa using ha
    have prim : ∀ (name : NameMeta) (wire : WireType), f.data.ty = .type (.primitive name wire) →
        name.csharp.map String.toList = some (readMethod t) → primitive t = true → (wire = if wireOf t = 0 then .varint else .sized) →
        Kind isState attrs t f := fun name wire hm hn hp hw => by
      rw [hm] at hty
      simp only [fieldType, typeName] at hty
      rw [hn] at hty
      exact .prim name wire hm ha hp (Option.some.inj hty).symm hw
    have state : (∃ name args, f.data.ty = .type (.ref name args)) → primitive t = false → Kind isState attrs t f :=
      fun ⟨name, args, hm⟩ hp => .state name args hm ha hp
    cases t with
    | uint w => cases w <;> exact prim _ _ hd rfl rfl rfl
    | sint w => cases w <;> exact prim _ _ hd rfl rfl rfl
    | bool => exact prim _ _ hd rfl rfl rfl
    | string => exact prim _ _ hd rfl rfl rfl
    | box t => exact state hd hg
    | bytes => exact state hd rfl
    | vec _ => exact state hd rfl
    | array _ _ => exact state hd rfl
    | tuple _ => exact state hd rfl
    | option _ => exact state hd rfl
    | hashMap _ _ => exact state hd rfl
    | list _ => exact state hd rfl
    | map _ _ => exact state hd rfl
    | struct _ _ _ => exact state hd rfl
    | enum _ _ _ _ => exact state hd rfl

theorem Drawn.wire (h : Drawn isState attrs t f) :
    wireAnswer isState (wireStmt f.data) = some (some (if wireOf t = 0 then .varint else .sized)) := by
  cases h.kind with
  | param p hm ha ht hw =>
    have e : wireStmt f.data = lit! "return StateFactory.IsStateType(typeof(" ++
        (p.toList ++ lit! ")) ? WireType.Sized : WireType.Varint;") := by
      unfold wireStmt fieldWireType
      rw [hm]
      simp [fmt, Frag.text]
    unfold wireAnswer
    rw [if_neg (by rw [e]; exact fun h => (nomatch h)), if_neg (by rw [e]; exact fun h => (nomatch h)),
      if_neg (by rw [e]; exact fun h => (nomatch h)), e, between_append, Option.map_some, hw]
  | prim name wire hm ha hp ht hw =>
    rw [← hw]
    unfold wireStmt fieldWireType
    rw [hm]
    cases wire <;> rfl
  | state name args hm ha hp =>
    rw [if_neg (wire_not_primitive hp)]
    unfold wireStmt fieldWireType
    rw [hm]
    rfl

theorem Drawn.nested (h : Drawn isState attrs t f) :
    nestedAnswer ((nestedCase f).elim (lit! "return null;") (·.2)) =
      some (if attrs.param then .propIfState f.name else if primitive t then .null else .prop f.name) := by
  have hn := h.ok.name
  cases h.kind with
  | param p hm ha ht hw =>
    rw [if_pos ha]
    have e : (nestedCase f).elim (lit! "return null;") (·.2) = lit! "return this." ++ (f.name ++ lit! " as IState;") := by
      unfold nestedCase fieldNested
      rw [hm]
      simp [fmt, Frag.text]
    unfold nestedAnswer
    rw [e, if_neg (by exact fun h => (nomatch h)), after_append, Option.bind_some, before_append]
  | prim name wire hm ha hp ht hw =>
    rw [if_neg (by simp [ha]), if_pos hp]
    unfold nestedCase fieldNested
    rw [hm]
    rfl
  | state name args hm ha hp =>
    rw [if_neg (by simp [ha]), if_neg (by simp [hp])]
    have e : (nestedCase f).elim (lit! "return null;") (·.2) = lit! "return this." ++ (f.name ++ lit! ";") := by
      unfold nestedCase fieldNested
      rw [hm]
      simp [fmt, Frag.text]
    have hb : before? (lit! " as IState;") (f.name ++ lit! ";") = none := by
      cases hb : before? (lit! " as IState;") (f.name ++ lit! ";") with
      | none => rfl
      | some u =>
        have := congrArg List.dropLast (before_some hb)
        rw [List.dropLast_concat] at this
        have hs : ' ' ∈ f.name := by
          rw [this]
          have : (u ++ lit! " as IState;").dropLast = u ++ lit! " as IState" := by
            have e : u ++ (lit! " as IState;") = (u ++ lit! " as IState") ++ [';'] := by simp
            rw [e, List.dropLast_concat]
          rw [this]
          simp
        exact absurd hs (name_no_space hn)
    unfold nestedAnswer
    rw [e, if_neg (by exact fun h => (nomatch h)), after_append, Option.bind_some, hb]
    simp only
    rw [before_append]
    rfl

/-- What follows what is read. -/
theorem replace_parts {name : Text} {tag : U32} {callee args : Text} {src : Source} (hn : IsName name) (hc : '(' ∉ callee)
    (hs : ∀ rest, source? callee ('(' :: (args ++ rest)) = some (src, rest)) :
    replaceAnswer (lit! "this." ++ (name ++ (lit! " = this.MaybeNotify(" ++ (decimal tag ++ (lit! ", " ++ (callee ++ ('(' :: (args ++
      (lit! ", this." ++ (name ++ (lit! ", On" ++ (name ++ lit! "Update, shouldNotify); break;"))))))))))))
      = some (.assign ⟨name, tag.toNat, src, name, lit! "On" ++ name ++ lit! "Update"⟩) := by
  have sp := name_no_space hn
  unfold replaceAnswer
  rw [if_neg (by exact fun h => (nomatch h)), after_append, Option.bind_some]
  have u1 : ∀ r : Text, upTo ' ' (name ++ (lit! " = this.MaybeNotify(" ++ r)) = (name, lit! " = this.MaybeNotify(" ++ r) :=
    fun r => upTo_append sp
  have u2 : ∀ r : Text, upTo ',' (decimal tag ++ (lit! ", " ++ r)) = (decimal tag, lit! ", " ++ r) :=
    fun r => upTo_append (decimal_no tag (by decide))
  have u3 : ∀ r : Text, upTo '(' (callee ++ ('(' :: r)) = (callee, '(' :: r) := fun r => upTo_append hc
  have sp' : ' ' ∉ name ++ [','] := by simpa using sp
  have u4 : ∀ r : Text, upTo ' ' (name ++ (lit! ", On" ++ r)) = (name ++ [','], lit! " On" ++ r) := fun r => by
    have := upTo_append (b := lit! "On" ++ r) sp'
    rw [List.append_assoc] at this
    exact this
  simp only [u1, after_append, Option.bind_some, u2, number_decimal, u3, hs, u4]
  have b1 : before? (lit! ",") (name ++ [',']) = some name := before_append _ _
  have b2 : ∀ r : Text, after? [' '] (lit! " On" ++ r) = some (lit! "On" ++ r) := fun r => after_append _ _
  have b3 : before? (lit! ", shouldNotify); break;") (lit! "On" ++ (name ++ lit! "Update, shouldNotify); break;")) =
      some (lit! "On" ++ name ++ lit! "Update") := by
    have e : (lit! "On" ++ (name ++ lit! "Update, shouldNotify); break;")) =
        (lit! "On" ++ name ++ lit! "Update") ++ lit! ", shouldNotify); break;" := by simp
    rw [e, before_append]
  simp only [b1, b2, b3, Option.bind_some, Option.map_some]

theorem Drawn.replace (h : Drawn isState attrs t f) : replaceAnswer (replaceStmt f) =
    some (.assign ⟨f.name, f.data.tag.toNat, sourceOf attrs t f.typeName f.data.tag.toNat, f.name, lit! "On" ++ f.name ++ lit! "Update"⟩) := by
  have hn := h.ok.name
  have hp' : '(' ∉ f.typeName := unbr_paren h.ok.type
  have dp : ∀ r : Text, upTo ')' (decimal f.data.tag ++ (')' :: r)) = (decimal f.data.tag, ')' :: r) :=
    fun r => upTo_append (decimal_no _ (by decide))
  have key : ∀ (callee args : Text) (src : Source), '(' ∉ callee →
      replaceStmt f = (lit! "this." ++ (f.name ++ (lit! " = this.MaybeNotify(" ++ (decimal f.data.tag ++ (lit! ", " ++ (callee ++
        ('(' :: (args ++ (lit! ", this." ++ (f.name ++ (lit! ", On" ++ (f.name ++ lit! "Update, shouldNotify); break;")))))))))))) →
      (∀ rest, source? callee ('(' :: (args ++ rest)) = some (src, rest)) → sourceOf attrs t f.typeName f.data.tag.toNat = src →
      replaceAnswer (replaceStmt f) =
        some (.assign ⟨f.name, f.data.tag.toNat, sourceOf attrs t f.typeName f.data.tag.toNat, f.name, lit! "On" ++ f.name ++ lit! "Update"⟩) :=
    fun callee args src hc he hs ho => by rw [he, ho]; exact replace_parts hn hc hs
  cases h.kind with
  | param p hm ha ht hw =>
    refine key (lit! "StateFactory.Deserialize<" ++ (f.typeName ++ lit! ">")) (lit! "reader, this.Path, " ++ (decimal f.data.tag ++ lit! ")"))
      (.param f.typeName f.data.tag.toNat) ?_ ?_ ?_ ?_
    · simpa using hp'
    · unfold replaceStmt
      rw [hm]
      simp [fmt, Frag.text]
    · intro rest
      have a1 : ∀ r : Text, after? (lit! "()") ('(' :: (lit! "reader, this.Path, " ++ r)) = none := fun _ => rfl
      have a2 : ∀ r : Text, after? (lit! "(reader, this.Path.GetNested(") ('(' :: (lit! "reader, this.Path, " ++ r)) = none := fun _ => rfl
      have a3 : ∀ r : Text, after? (lit! "(reader, this.Path, ") ('(' :: (lit! "reader, this.Path, " ++ r)) = some r := fun _ => after_append _ _
      have a4 : ∀ r : Text, after? (lit! ")") (')' :: r) = some r := fun _ => after_append _ _
      have e : ∀ r : Text, (decimal f.data.tag ++ (lit! ")") ++ r) = decimal f.data.tag ++ (')' :: r) := fun r => by simp
      unfold source?
      simp only [List.append_assoc, a1, a2, a3, Option.bind_some, between_append]
      rw [← List.append_assoc, e]
      simp only [dp, number_decimal, Option.bind_some, a4, Option.map_some]
    · unfold sourceOf
      rw [if_pos ha]
  | prim name wire hm ha hp ht hw =>
    refine key (lit! "reader.Read" ++ f.typeName) (lit! ")") (.method (readMethod t)) ?_ ?_ ?_ ?_
    · simpa using hp'
    · unfold replaceStmt
      rw [hm]
      simp [fmt, Frag.text]
    · intro rest
      have a1 : after? (lit! "()") ('(' :: ((lit! ")") ++ rest)) = some rest := after_append _ _
      unfold source?
      simp only [a1, after_append, Option.map_some, ht]
    · unfold sourceOf
      rw [if_neg (by simp [ha]), if_pos hp]
  | state name args hm ha hp =>
    refine key (f.typeName ++ lit! ".Deserialize") (lit! "reader, this.Path.GetNested(" ++ (decimal f.data.tag ++ lit! "))"))
      (.state f.typeName f.data.tag.toNat) ?_ ?_ ?_ ?_
    · simpa using hp'
    · unfold replaceStmt
      rw [hm]
      simp [fmt, Frag.text]
    · intro rest
      have a1 : ∀ r : Text, after? (lit! "()") ('(' :: (lit! "reader, this.Path.GetNested(" ++ r)) = none := fun _ => rfl
      have a2 : ∀ r : Text, after? (lit! "(reader, this.Path.GetNested(") ('(' :: (lit! "reader, this.Path.GetNested(" ++ r)) = some r :=
        fun _ => after_append _ _
      have a4 : ∀ r : Text, after? (lit! "))") (')' :: ')' :: r) = some r := fun _ => after_append _ _
      have e : ∀ r : Text, (decimal f.data.tag ++ (lit! "))") ++ r) = decimal f.data.tag ++ (')' :: ')' :: r) := fun r => by simp
      unfold source?
      simp only [List.append_assoc, a1, a2, before_append, Option.bind_some]
      rw [← List.append_assoc, e]
      simp only [dp, number_decimal, Option.bind_some, a4, Option.map_some]
    · unfold sourceOf
      rw [if_neg (by simp [ha]), if_neg (by simp [hp])]

theorem Drawn.made (h : Drawn isState attrs t f) (hc : attrs.param = true ∨ primitive t = false) :
    madeFor f = some ⟨f.name, if attrs.param then lit! "StateFactory.Construct<" ++ f.typeName ++ lit! ">" else lit! "new " ++ f.typeName,
      f.data.tag.toNat⟩ := by
  unfold madeFor
  cases h.kind with
  | param p hm ha ht hw => rw [hm, if_pos ha, ht, List.append_assoc]
  | prim name wire hm ha hp ht hw =>
    rw [ha, hp] at hc
    rcases hc with hc | hc <;> cases hc
  | state name args hm ha hp => rw [hm, if_neg (by simp [ha])]

/-! ## All fields -/

/-- All fields. -/
def DrawnAll (isState : Text → Bool) : Fields → List CSharpField → Prop
  | .nil, [] => True
  | .cons tag attrs t fs, f :: cfs => f.data.tag = tag ∧ Drawn isState attrs t f ∧ DrawnAll isState fs cfs
  | _, _ => False

theorem drawnAll {cm : CaseMap} : ∀ {fs : Fields} {ms : List FieldMeta} {cfs : List CSharpField}, DescribesFields fs ms →
    CSharpField.fromMetas cm ms = some cfs → (∀ f ∈ cfs, FieldOk f) → GoodFields fs → StatesTold isState fs ms → DrawnAll isState fs cfs
  | .nil, ms, cfs, hd, hm, _, _, _ => by
    cases (hd : ms = [])
    cases hm
    trivial
  | .cons tag attrs t fs, _, cfs, ⟨m, ms, rfl, htag, hd, hds⟩, hm, hok, ⟨hg, hgs⟩, ⟨ht, hts⟩ => by
    simp only [CSharpField.fromMetas] at hm
    split at hm
    · rename_i f cfs' h1 h2
      cases hm
      simp only [CSharpField.fromMeta] at h1
      obtain ⟨tn, htn, rfl⟩ := Option.map_eq_some_iff.1 h1
      exact ⟨htag, ⟨hd, htn, hok _ List.mem_cons_self, hg, ht⟩,
        drawnAll hds h2 (fun f hf => hok f (List.mem_cons_of_mem _ hf)) hgs hts⟩
    · cases hm

theorem drawn_tags : ∀ {fs : Fields} {cfs : List CSharpField}, DrawnAll isState fs cfs → cfs.map (·.data.tag) = fs.tags
  | .nil, [], _ => rfl
  | .cons _ _ _ fs, f :: cfs, ⟨h, _, hs⟩ => by simp only [List.map_cons, Fields.tags, h, drawn_tags hs]
  | .nil, _ :: _, h => h.elim
  | .cons _ _ _ _, [], h => h.elim

theorem fieldAt_mem : ∀ {fs : Fields} {n i : Nat} {attrs : FieldAttrs} {t : Ty}, fieldAt fs n = some (i, attrs, t) →
    ∃ tag ∈ fs.tags, tag.toNat = n
  | .nil, _, _, _, _, h => by cases h
  | .cons tag attrs t fs, n, i, attrs', t', h => by
    simp only [fieldAt] at h
    split at h
    · rename_i he
      exact ⟨tag, by simp [Fields.tags], he.symm⟩
    · obtain ⟨⟨j, a, u⟩, hj, he⟩ := Option.map_eq_some_iff.1 h
      obtain ⟨tag', hm, hn⟩ := fieldAt_mem hj
      exact ⟨tag', by simp [Fields.tags, hm], hn⟩

/-- The table of `GetWireType`. -/
def wireTable (cfs : List CSharpField) : Switch :=
  ⟨cfs.filterMap fun f => some (f.data.tag.toNat, wireStmt f.data), some (lit! "return null;")⟩

/-- The table of `GetNested`. -/
def nestedTable (cfs : List CSharpField) : Switch := ⟨cfs.filterMap nestedCase, some (lit! "return null;")⟩

/-- The table of `ReplaceAt`. -/
def replaceTable (cfs : List CSharpField) : Switch :=
  ⟨cfs.filterMap fun f => some (f.data.tag.toNat, replaceStmt f), some (lit! "reader.SkipField(wireType); break;")⟩

theorem nestedCase_tag (f : CSharpField) (e : Nat × Text) (h : nestedCase f = some e) : e.1 = f.data.tag.toNat := by
  unfold nestedCase at h
  obtain ⟨t, _, rfl⟩ := Option.map_eq_some_iff.1 h
  rfl

theorem fieldAt_none : ∀ {fs : Fields} {cfs : List CSharpField} {n : Nat}, DrawnAll isState fs cfs → fieldAt fs n = none →
    ∀ f ∈ cfs, f.data.tag.toNat ≠ n
  | .nil, [], _, _, _ => fun f hf => by cases hf
  | .cons tag _ _ fs, f :: cfs, n, ⟨ht, _, hs⟩, h => fun g hg => by
    simp only [fieldAt] at h
    split at h
    · cases h
    · rename_i hne
      rcases List.mem_cons.1 hg with rfl | hg
      · rw [ht]; exact fun he => hne he.symm
      · exact fieldAt_none hs (Option.map_eq_none_iff.1 h) g hg
  | .nil, _ :: _, _, h, _ => h.elim
  | .cons _ _ _ _, [], _, h, _ => h.elim

theorem fieldAt_found : ∀ {fs : Fields} {cfs : List CSharpField} {n i : Nat} {attrs : FieldAttrs} {t : Ty}, DrawnAll isState fs cfs →
    fs.tags.Nodup → fieldAt fs n = some (i, attrs, t) → ∃ f, cfs[i]? = some f ∧ f.data.tag.toNat = n ∧ Drawn isState attrs t f ∧
      (wireTable cfs).at n = some (wireStmt f.data) ∧
      (nestedTable cfs).at n = some ((nestedCase f).elim (lit! "return null;") (·.2)) ∧
      (replaceTable cfs).at n = some (replaceStmt f)
  | .nil, [], _, _, _, _, _, _, h => by cases h
  | .cons tag attrs t fs, f :: cfs, n, i, attrs', t', ⟨ht, hd, hs⟩, hn, h => by
    simp only [Fields.tags, List.nodup_cons] at hn
    simp only [fieldAt] at h
    unfold wireTable nestedTable replaceTable
    rw [at_some (g := fun f : CSharpField => some (f.data.tag.toNat, wireStmt f.data)) rfl,
      at_some (g := fun f : CSharpField => some (f.data.tag.toNat, replaceStmt f)) rfl]
    split at h
    · rename_i he
      cases h
      rw [if_pos (by rw [ht]; exact he), if_pos (by rw [ht]; exact he)]
      refine ⟨f, rfl, by rw [ht]; exact he.symm, hd, rfl, ?_, rfl⟩
      cases hc : nestedCase f with
      | some e =>
        have := nestedCase_tag f e hc
        rw [at_some (k := e.1) (s := e.2) hc, if_pos (by rw [this, ht]; exact he)]
        rfl
      | none =>
        rw [at_none hc]
        refine at_absent (tag := fun f : CSharpField => f.data.tag.toNat) nestedCase_tag _ fun g hg hgt => hn.1 ?_
        rw [← drawn_tags hs]
        exact List.mem_map.2 ⟨g, hg, BitVec.eq_of_toNat_eq (hgt.trans he)⟩
    · rename_i hne
      rw [if_neg (by rw [ht]; exact hne), if_neg (by rw [ht]; exact hne)]
      obtain ⟨⟨j, a, u⟩, hj, he⟩ := Option.map_eq_some_iff.1 h
      cases he
      obtain ⟨g, hg, hgt, hgd, h1, h2, h3⟩ := fieldAt_found hs hn.2 hj
      refine ⟨g, by simpa using hg, hgt, hgd, h1, ?_, h3⟩
      cases hc : nestedCase f with
      | some e =>
        have := nestedCase_tag f e hc
        rw [at_some (k := e.1) (s := e.2) hc, if_neg (by rw [this, ht]; exact hne)]
        exact h2
      | none => rw [at_none hc]; exact h2
  | .nil, _ :: _, _, _, _, _, h, _, _ => h.elim
  | .cons _ _ _ _, [], _, _, _, _, h, _, _ => h.elim

theorem fieldAt_of_drawn : ∀ {fs : Fields} {cfs : List CSharpField} {i : Nat} {f : CSharpField}, DrawnAll isState fs cfs →
    fs.tags.Nodup → cfs[i]? = some f → ∃ attrs t, fieldAt fs f.data.tag.toNat = some (i, attrs, t) ∧ Drawn isState attrs t f
  | .nil, [], _, _, _, _, h => by simp at h
  | .cons tag attrs t fs, g :: cfs, i, f, ⟨ht, hd, hs⟩, hn, h => by
    simp only [Fields.tags, List.nodup_cons] at hn
    simp only [fieldAt]
    cases i with
    | zero =>
      simp only [List.getElem?_cons_zero, Option.some.injEq] at h
      subst h
      exact ⟨attrs, t, by rw [if_pos (by rw [ht])], hd⟩
    | succ i =>
      simp only [List.getElem?_cons_succ] at h
      obtain ⟨a, u, hf, hd'⟩ := fieldAt_of_drawn hs hn.2 h
      refine ⟨a, u, ?_, hd'⟩
      rw [if_neg, hf]
      · rfl
      · intro he
        refine hn.1 ?_
        rw [← drawn_tags hs]
        exact List.mem_map.2 ⟨f, List.mem_of_getElem? h, BitVec.eq_of_toNat_eq he⟩
  | .nil, _ :: _, _, _, h, _, _ => h.elim
  | .cons _ _ _ _, [], _, _, h, _, _ => h.elim

theorem drawn_length : ∀ {fs : Fields} {cfs : List CSharpField}, DrawnAll isState fs cfs → cfs.length = fs.tags.length := fun h => by
  rw [← drawn_tags h, List.length_map]

theorem serves {fs : Fields} {cfs : List CSharpField} (name : Text) (h : DrawnAll isState fs cfs) (hn : fs.tags.Nodup) :
    Serves isState (classFor name cfs) fs where
  isEnum := rfl
  props := by
    show (cfs.map _).length = _
    rw [List.length_map, drawn_length h]
  unknown n hf := by
    have ha := fieldAt_none h hf
    have h1 : (wireTable cfs).at n = some _ := at_absent (tag := fun f : CSharpField => f.data.tag.toNat) (fun f e he => by cases he; rfl) _ ha
    have h2 : (nestedTable cfs).at n = some _ := at_absent (tag := fun f : CSharpField => f.data.tag.toNat) nestedCase_tag _ ha
    have h3 : (replaceTable cfs).at n = some _ := at_absent (tag := fun f : CSharpField => f.data.tag.toNat) (fun f e he => by cases he; rfl) _ ha
    refine ⟨?_, ?_, ?_⟩
    · show ((wireTable cfs).at n).bind _ = _
      rw [h1]; rfl
    · show ((nestedTable cfs).at n).bind _ = _
      rw [h2]; rfl
    · show ((replaceTable cfs).at n).bind _ = _
      rw [h3]; rfl
  known n i attrs t hf := by
    obtain ⟨f, hi, hft, hd, h1, h2, h3⟩ := fieldAt_found h hn hf
    refine ⟨f.typeName, f.name, ?_, ?_, ?_, ?_, ?_, ?_⟩
    · show (cfs.map _)[i]? = _
      rw [List.getElem?_map, hi]; rfl
    · intro ha hp
      cases hd.kind with
      | param _ _ ha' _ _ => rw [ha] at ha'; cases ha'
      | prim _ _ _ _ _ ht _ => exact ht
      | state _ _ _ _ hp' => rw [hp] at hp'; cases hp'
    · show ((wireTable cfs).at n).bind _ = _
      rw [h1]; exact hd.wire
    · show ((nestedTable cfs).at n).bind _ = _
      rw [h2]; exact hd.nested
    · show ((replaceTable cfs).at n).bind _ = _
      rw [h3, Option.bind_some, hd.replace, hft]
    · intro hc
      show _ ∈ cfs.filterMap madeFor
      refine List.mem_filterMap.2 ⟨f, List.mem_of_getElem? hi, ?_⟩
      rw [hd.made hc, hft]
  made m hm := by
    obtain ⟨f, hf, hm⟩ := List.mem_filterMap.1 hm
    obtain ⟨i, hi⟩ := List.getElem?_of_mem hf
    obtain ⟨attrs, t, hfa, hd⟩ := fieldAt_of_drawn h hn hi
    have hmt : m.prop = f.name ∧ (attrs.param = true ∨ primitive t = false) := by
      cases hd.kind with
      | param _ hm' ha' _ _ => simp only [madeFor, hm'] at hm; cases hm; exact ⟨rfl, .inl ha'⟩
      | prim _ _ hm' _ _ _ _ => simp [madeFor, hm'] at hm
      | state _ _ hm' _ hp' => simp only [madeFor, hm'] at hm; cases hm; exact ⟨rfl, .inr hp'⟩
    refine ⟨f.data.tag.toNat, i, attrs, t, f.typeName, hfa, ?_, hmt.2, ?_⟩
    · show (cfs.map _)[i]? = _
      rw [List.getElem?_map, hi, hmt.1]; rfl
    · rw [hd.made hmt.2] at hm
      cases hm; rfl

/-! ## Enums -/

theorem new_answer {v : VariantMeta} (h : IsName v.ty.name.csharpName.toList) :
    newVariant? (newStmt v) = some (v.ty.name.csharpName.toList, v.tag.toNat) := by
  have hp : '(' ∉ v.ty.name.csharpName.toList := unbr_paren (isName_unbr h)
  have e : newStmt v = lit! "this.Variant = new " ++ (v.ty.name.csharpName.toList ++ (lit! "(this.Path.GetNested(" ++
      (decimal v.tag ++ lit! ")); break;"))) := by simp [newStmt, fmt, Frag.text]
  have u : ∀ r : Text, upTo '(' (v.ty.name.csharpName.toList ++ (lit! "(this.Path.GetNested(" ++ r)) =
      (v.ty.name.csharpName.toList, lit! "(this.Path.GetNested(" ++ r) := fun r => upTo_append hp
  unfold newVariant?
  rw [e]
  simp only [after_append, Option.bind_some, u, between_append, number_decimal, Option.map_some]

theorem read_answer {v : VariantMeta} (h : IsName v.ty.name.csharpName.toList) :
    readVariant? (readStmt v) = some (v.tag.toNat, v.ty.name.csharpName.toList, v.tag.toNat) := by
  have hp : '(' ∉ v.ty.name.csharpName.toList ++ lit! ".Deserialize" := by
    have := unbr_paren (isName_unbr h)
    simpa using this
  have e : readStmt v = lit! "this.UpdateAndNotify(" ++ (decimal v.tag ++ (lit! ", " ++ ((v.ty.name.csharpName.toList ++ lit! ".Deserialize") ++
      (lit! "(reader, this.Path.GetNested(" ++ (decimal v.tag ++ lit! ")), shouldNotify); break;"))))) := by
    simp [readStmt, fmt, Frag.text]
  have u1 : ∀ r : Text, upTo ',' (decimal v.tag ++ (lit! ", " ++ r)) = (decimal v.tag, lit! ", " ++ r) :=
    fun r => upTo_append (decimal_no v.tag (by decide))
  have u2 : ∀ r : Text, upTo '(' ((v.ty.name.csharpName.toList ++ lit! ".Deserialize") ++ (lit! "(reader, this.Path.GetNested(" ++ r)) =
      (v.ty.name.csharpName.toList ++ lit! ".Deserialize", lit! "(reader, this.Path.GetNested(" ++ r) := fun r => upTo_append hp
  unfold readVariant?
  rw [e]
  simp only [after_append, Option.bind_some, u1, u2, number_decimal, before_append, between_append, Option.map_some]

theorem lookup_variants : ∀ {vs : List VariantMeta} {n : Nat} {name : Text},
    (vs.map fun v => (v.tag.toNat, v.ty.name.csharpName.toList)).lookup n = some name →
    ∃ v ∈ vs, v.tag.toNat = n ∧ v.ty.name.csharpName.toList = name ∧
      ∀ (stmt : VariantMeta → Text) (d : Option Text), Switch.at ⟨vs.filterMap fun v => some (v.tag.toNat, stmt v), d⟩ n = some (stmt v)
  | [], _, _, h => by cases h
  | v :: vs, n, name, h => by
    simp only [List.map_cons, List.lookup_cons] at h
    by_cases hv : n = v.tag.toNat
    · simp only [hv, beq_self_eq_true, Option.some.injEq] at h
      refine ⟨v, List.mem_cons_self, hv.symm, h, fun stmt d => ?_⟩
      rw [at_some (g := fun v : VariantMeta => some (v.tag.toNat, stmt v)) rfl, if_pos hv]
    · have hb : (n == v.tag.toNat) = false := by simpa using hv
      rw [hb] at h
      obtain ⟨u, hu, h1, h2, h3⟩ := lookup_variants h
      refine ⟨u, List.mem_cons_of_mem _ hu, h1, h2, fun stmt d => ?_⟩
      rw [at_some (g := fun v : VariantMeta => some (v.tag.toNat, stmt v)) rfl, if_neg hv, h3]

theorem lookup_no_variant : ∀ {vs : List VariantMeta} {n : Nat},
    (vs.map fun v => (v.tag.toNat, v.ty.name.csharpName.toList)).lookup n = none → ∀ v ∈ vs, v.tag.toNat ≠ n
  | [], _, _ => fun v hv => by cases hv
  | v :: vs, n, h => fun u hu => by
    simp only [List.map_cons, List.lookup_cons] at h
    by_cases hv : n = v.tag.toNat
    · simp only [hv, beq_self_eq_true] at h; cases h
    · have hb : (n == v.tag.toNat) = false := by simpa using hv
      rw [hb] at h
      rcases List.mem_cons.1 hu with rfl | hu
      · exact fun e => hv e.symm
      · exact lookup_no_variant h u hu

theorem lookup_dflt : ∀ {vs : List VariantMeta} {dflt : VariantMeta}, vs.find? (fun v => v.tag == 0) = some dflt →
    (vs.map fun v => (v.tag.toNat, v.ty.name.csharpName.toList)).lookup 0 = some dflt.ty.name.csharpName.toList
  | [], _, h => by cases h
  | v :: vs, dflt, h => by
    simp only [List.find?_cons] at h
    simp only [List.map_cons, List.lookup_cons]
    by_cases hv : v.tag = 0
    · have hb : (v.tag == 0) = true := by simpa using hv
      rw [hb] at h
      cases h
      rw [hv]; rfl
    · have hb : (v.tag == 0) = false := by simpa using hv
      rw [hb] at h
      have hb' : ((0 : Nat) == v.tag.toNat) = false := by
        simp only [beq_eq_false_iff_ne, ne_eq]
        exact fun e => hv (BitVec.eq_of_toNat_eq e.symm)
      rw [hb']
      exact lookup_dflt h

theorem serves_enum {vs : List VariantMeta} {dflt : VariantMeta} (name : Text) (hv : ∀ v ∈ vs, IsName v.ty.name.csharpName.toList)
    (hd : vs.find? (fun v => v.tag == 0) = some dflt) :
    ServesEnum isState (enumClassFor name dflt vs) (vs.map fun v => (v.tag.toNat, v.ty.name.csharpName.toList)) where
  isEnum := rfl
  start := by
    have h0 : dflt.tag = 0 := by simpa using List.find?_some hd
    show some dflt.tag.toNat = _
    rw [h0]; rfl
  unknown n h := by
    have ha := lookup_no_variant h
    refine ⟨_, lookup_dflt hd, ?_, ?_, ?_⟩
    · have : (enumClassFor name dflt vs).wire.at n = some (lit! "return null;") :=
        at_absent (tag := fun v : VariantMeta => v.tag.toNat) (fun v e he => by cases he; rfl) _ ha
      rw [this]; rfl
    · have : (enumClassFor name dflt vs).ctor.at n = some (newStmt dflt) :=
        at_absent (tag := fun v : VariantMeta => v.tag.toNat) (fun v e he => by cases he; rfl) _ ha
      have h0 : dflt.tag = 0 := by simpa using List.find?_some hd
      rw [this, Option.bind_some, new_answer (hv _ (List.mem_of_find?_eq_some hd)), h0]; rfl
    · exact at_absent (tag := fun v : VariantMeta => v.tag.toNat) (fun v e he => by cases he; rfl) _ ha
  known n cname h := by
    obtain ⟨v, hm, rfl, rfl, hs⟩ := lookup_variants h
    refine ⟨?_, ?_, ?_⟩
    · have : (enumClassFor name dflt vs).wire.at v.tag.toNat = some (lit! "return WireType.Sized;") := hs (fun _ => lit! "return WireType.Sized;") _
      rw [this]; rfl
    · have : (enumClassFor name dflt vs).ctor.at v.tag.toNat = some (newStmt v) := hs newStmt _
      rw [this]; exact new_answer (hv v hm)
    · have : (enumClassFor name dflt vs).replace.at v.tag.toNat = some (readStmt v) := hs readStmt _
      rw [this]; exact read_answer (hv v hm)

theorem VariantClasses.length {cm : CaseMap} {vs : List VariantMeta} {cs : List Class} (h : VariantClasses cm vs cs) : cs.length = vs.length := by
  induction h with
  | nil => rfl
  | cons _ _ ih => simp [ih]

theorem VariantClasses.get {cm : CaseMap} {vs : List VariantMeta} {cs : List Class} (h : VariantClasses cm vs cs) : ∀ {i : Nat} {v : VariantMeta},
    vs[i]? = some v → ∃ fields, CSharpField.fromMetas cm v.ty.fields = some fields ∧
      cs[i]? = some (classFor v.ty.name.csharpName.toList fields) := by
  induction h with
  | nil => intro i v hv; simp at hv
  | cons hf _ ih =>
    intro i v hv
    cases i with
    | zero => simp only [List.getElem?_cons_zero, Option.some.injEq] at hv; subst hv; exact ⟨_, hf, rfl⟩
    | succ i => simp only [List.getElem?_cons_succ] at hv ⊢; exact ih hv

end Steit.Gen
