import Verif.Lemmas.CSharpReplayTotal
import Verif.Props.Tables
import Verif.Spec.Classes

/-!
# Running classes that serve the fields of a message
-/

namespace Steit.Gen

open Steit.Gen.Spec Steit.Spec

/-! ## Fields by position -/

/-- The field at a position. -/
def nth : Fields → Nat → Option (U32 × FieldAttrs × Ty)
  | .nil, _ => none
  | .cons tag attrs t _, 0 => some (tag, attrs, t)
  | .cons _ _ _ fs, i + 1 => nth fs i

theorem nth_of_fieldAt : ∀ {fs : Fields} {n i : Nat} {attrs : FieldAttrs} {t : Ty}, fieldAt fs n = some (i, attrs, t) →
    ∃ tag, nth fs i = some (tag, attrs, t) ∧ tag.toNat = n
  | .nil, _, _, _, _, h => by cases h
  | .cons tag a u fs, n, i, attrs, t, h => by
    simp only [fieldAt] at h
    split at h
    · rename_i he; cases h; exact ⟨tag, rfl, he.symm⟩
    · obtain ⟨⟨j, a', u'⟩, hj, he⟩ := Option.map_eq_some_iff.1 h
      cases he
      obtain ⟨tag', h1, h2⟩ := nth_of_fieldAt hj
      exact ⟨tag', h1, h2⟩

theorem nth_mem : ∀ {fs : Fields} {i : Nat} {tag : U32} {attrs : FieldAttrs} {t : Ty}, nth fs i = some (tag, attrs, t) → tag ∈ fs.tags
  | .nil, _, _, _, _, h => by cases h
  | .cons _ _ _ _, 0, _, _, _, h => by cases h; exact .head _
  | .cons _ _ _ fs, i + 1, _, _, _, h => .tail _ (nth_mem (fs := fs) h)

theorem fieldAt_of_nth : ∀ {fs : Fields} {i : Nat} {tag : U32} {attrs : FieldAttrs} {t : Ty}, fs.tags.Nodup →
    nth fs i = some (tag, attrs, t) → fieldAt fs tag.toNat = some (i, attrs, t)
  | .nil, _, _, _, _, _, h => by cases h
  | .cons _ _ _ _, 0, _, _, _, _, h => by cases h; simp [fieldAt]
  | .cons tag' a u fs, i + 1, tag, attrs, t, hn, h => by
    simp only [Fields.tags, List.nodup_cons] at hn
    simp only [nth] at h
    simp only [fieldAt]
    rw [if_neg, fieldAt_of_nth hn.2 h]
    · rfl
    · exact fun he => hn.1 (by rw [← BitVec.eq_of_toNat_eq he]; exact nth_mem h)

theorem nth_depth : ∀ {fs : Fields} {i : Nat} {tag : U32} {attrs : FieldAttrs} {t : Ty}, nth fs i = some (tag, attrs, t) →
    depth t ≤ depthFields fs
  | .nil, _, _, _, _, h => by cases h
  | .cons _ _ _ _, 0, _, _, _, h => by cases h; exact Nat.le_max_left _ _
  | .cons _ _ _ fs, i + 1, _, _, _, h => Nat.le_trans (nth_depth (fs := fs) h) (Nat.le_max_right _ _)

theorem nth_good : ∀ {fs : Fields} {i : Nat} {tag : U32} {attrs : FieldAttrs} {t : Ty}, GoodFields fs → nth fs i = some (tag, attrs, t) →
    GoodField attrs t
  | .nil, _, _, _, _, _, h => by cases h
  | .cons _ _ _ _, 0, _, _, _, hg, h => by cases h; exact hg.1
  | .cons _ _ _ fs, i + 1, _, _, _, hg, h => nth_good (fs := fs) hg.2 h

theorem valsOf_length : ∀ (fs : Fields) (v : fs.Cs), (valsOf fs v).length = fs.tags.length
  | .nil, _ => rfl
  | .cons _ _ _ fs, v => by simp only [valsOf, Fields.tags, List.length_cons, valsOf_length fs v.2]

theorem vals_new : ∀ {fs : Fields} {i : Nat} {tag : U32} {attrs : FieldAttrs} {t : Ty}, nth fs i = some (tag, attrs, t) →
    (valsOf fs fs.csNew)[i]? = some (valOf t t.csNew)
  | .nil, _, _, _, _, h => by cases h
  | .cons _ _ _ _, 0, _, _, _, h => by cases h; rfl
  | .cons _ _ _ fs, i + 1, _, _, _, h => vals_new (fs := fs) h

theorem nth_some : ∀ {fs : Fields} {i : Nat}, i < fs.tags.length → ∃ tag attrs t, nth fs i = some (tag, attrs, t)
  | .nil, _, h => by cases h
  | .cons tag a t _, 0, _ => ⟨tag, a, t, rfl⟩
  | .cons _ _ _ fs, i + 1, h => nth_some (fs := fs) (by simpa [Fields.tags] using h)

/-! ## Classes that run -/

/-- Is the type a text stands for a state? -/
def stateText (P : Project) (f : CsFile) (args : List Rt) (p : Text) : Bool := ((readType P f args p).map Rt.isState).getD false

/-- A class serving fields, with names and tags that do not clash. -/
structure Served (P : Project) (f : CsFile) (args : List Rt) (c : Class) (fs : Fields) : Prop where
  serves : Serves (stateText P f args) c fs
  names : (c.props.map (·.2)).Nodup
  tags : fs.tags.Nodup
  good : GoodFields fs

mutual
/-- `Runs P k t τ`: in the project, the C# type `τ` behaves as the type `t` does, as far as `k` bytes can tell. -/
def Runs (P : Project) : Nat → Ty → Rt → Prop
  | _, .uint w, τ => ∃ n, τ = .system n ∧ primOf n = some (.uint w)
  | _, .sint w, τ => ∃ n, τ = .system n ∧ primOf n = some (.sint w)
  | _, .bool, τ => ∃ n, τ = .system n ∧ primOf n = some .bool
  | _, .string, τ => ∃ n, τ = .system n ∧ primOf n = some .string
  | _, .bytes, τ => τ = .library (lit! "Bytes") []
  | k, .vec t, τ => ∃ a, τ = .library (lit! "Vector") [a] ∧ Runs P (k - 1) t a
  | k, .array _ t, τ => ∃ a, τ = .library (lit! "Vector") [a] ∧ Runs P (k - 1) t a
  | _, .tuple _, _ => False
  | k, .option t, τ => ∃ a, τ = .library (lit! "Option") [a] ∧ Runs P (k - 1) t a
  | k, .box t, τ => Runs P k t τ
  | _, .hashMap _ _, _ => False
  | k, .list t, τ => ∃ a, τ = .library (lit! "StateList") [a] ∧ Runs P (k - 1) t a
  | k, .map _ t, τ => ∃ a, τ = .library (lit! "StateMap") [a] ∧ Runs P (k - 1) t a
  | k, .struct _ _ fs, τ => ∃ n args, τ = .message n args ∧ (k ≠ 0 → ∃ f, P.find n args.length = some f ∧ Served P f args f.outer fs ∧
      RunsFields P k f args f.outer.props fs)
  | k, .enum _ _ fs vs, τ => ∃ n args, τ = .message n args ∧ (k ≠ 0 → ∃ f names, P.find n args.length = some f ∧
      ServesEnum (stateText P f args) f.outer names ∧ (∀ m, (names.lookup m).isSome → m = 0 ∨ ∃ tag ∈ vs.tags, tag.toNat = m) ∧
      (∃ v c, names.lookup 0 = some v ∧ readType P f args v = some (.variant n args v) ∧
        P.classOf (.variant n args v) = some (f, args, c) ∧ Served P f args c fs ∧ RunsFields P k f args c.props fs) ∧
      RunsVariants P k n f args names vs)

/-- The types of properties. -/
def RunsFields (P : Project) : Nat → CsFile → List Rt → List (Text × Text) → Fields → Prop
  | _, _, _, props, .nil => props = []
  | k, f, args, props, .cons _ _ t fs => ∃ type name props' τ, props = (type, name) :: props' ∧ readType P f args type = some τ ∧ Runs P k t τ ∧
      RunsFields P k f args props' fs

/-- The classes of variants. -/
def RunsVariants (P : Project) : Nat → Text → CsFile → List Rt → List (Nat × Text) → Variants → Prop
  | _, _, _, _, _, .nil => True
  | k, n, f, args, names, .cons tag _ fs vs => (∃ v c, names.lookup tag.toNat = some v ∧ readType P f args v = some (.variant n args v) ∧
      P.classOf (.variant n args v) = some (f, args, c) ∧ Served P f args c fs ∧ RunsFields P (k - 1) f args c.props fs) ∧
      RunsVariants P k n f args names vs
end

theorem runs_field {P : Project} {k : Nat} {f : CsFile} {args : List Rt} : ∀ {fs : Fields} {props : List (Text × Text)} {i : Nat} {tag : U32}
    {attrs : FieldAttrs} {t : Ty}, RunsFields P k f args props fs → nth fs i = some (tag, attrs, t) →
    ∃ type name τ, props[i]? = some (type, name) ∧ readType P f args type = some τ ∧ Runs P k t τ
  | .nil, _, _, _, _, _, _, h => by cases h
  | .cons _ _ _ _, _, 0, _, _, _, hr, h => by
    cases h
    simp only [RunsFields] at hr
    obtain ⟨type, name, props', τ, rfl, h1, h2, _⟩ := hr
    exact ⟨type, name, τ, rfl, h1, h2⟩
  | .cons _ _ _ fs, _, i + 1, _, _, _, hr, h => by
    simp only [RunsFields] at hr
    obtain ⟨type, name, props', τ, rfl, _, _, hs⟩ := hr
    obtain ⟨a, b, c, h1, h2, h3⟩ := runs_field (fs := fs) (props := props') (i := i) hs h
    exact ⟨a, b, c, by simpa using h1, h2, h3⟩

theorem runs_length {P : Project} {k : Nat} {f : CsFile} {args : List Rt} : ∀ {fs : Fields} {props : List (Text × Text)},
    RunsFields P k f args props fs → props.length = fs.tags.length
  | .nil, _, h => by simp only [RunsFields] at h; subst h; rfl
  | .cons _ _ _ fs, _, h => by
    simp only [RunsFields] at h
    obtain ⟨type, name, props', τ, rfl, _, _, hs⟩ := h
    simp only [List.length_cons, Fields.tags, runs_length hs]

theorem Runs.state {P : Project} : ∀ {t : Ty} {k : Nat} {τ : Rt}, Runs P k t τ → τ.isState = t.isCsState
  | .uint _, _, _, h => by simp only [Runs] at h; obtain ⟨_, rfl, _⟩ := h; rfl
  | .sint _, _, _, h => by simp only [Runs] at h; obtain ⟨_, rfl, _⟩ := h; rfl
  | .bool, _, _, h => by simp only [Runs] at h; obtain ⟨_, rfl, _⟩ := h; rfl
  | .string, _, _, h => by simp only [Runs] at h; obtain ⟨_, rfl, _⟩ := h; rfl
  | .bytes, _, _, h => by simp only [Runs] at h; subst h; rfl
  | .vec _, _, _, h => by simp only [Runs] at h; obtain ⟨_, rfl, _⟩ := h; rfl
  | .array _ _, _, _, h => by simp only [Runs] at h; obtain ⟨_, rfl, _⟩ := h; rfl
  | .tuple _, _, _, h => by simp only [Runs] at h
  | .option _, _, _, h => by simp only [Runs] at h; obtain ⟨_, rfl, _⟩ := h; rfl
  | .box t, _, _, h => by simp only [Runs] at h; exact Runs.state (t := t) h
  | .hashMap _ _, _, _, h => by simp only [Runs] at h
  | .list _, _, _, h => by simp only [Runs] at h; obtain ⟨_, rfl, _⟩ := h; rfl
  | .map _ _, _, _, h => by simp only [Runs] at h; obtain ⟨_, rfl, _⟩ := h; rfl
  | .struct _ _ _, _, _, h => by simp only [Runs] at h; obtain ⟨_, _, rfl, _⟩ := h; rfl
  | .enum _ _ _ _, _, _, h => by simp only [Runs] at h; obtain ⟨_, _, rfl, _⟩ := h; rfl

theorem Runs.sized {P : Project} : ∀ {t : Ty} {k : Nat} {τ : Rt}, Runs P k t τ → τ.isSized = (t.isCsState || t.isCsString)
  | .uint _, _, _, h => by simp only [Runs] at h; obtain ⟨_, rfl, h⟩ := h; simp [Rt.isSized, h, Ty.isCsState, Ty.isCsString]
  | .sint _, _, _, h => by simp only [Runs] at h; obtain ⟨_, rfl, h⟩ := h; simp [Rt.isSized, h, Ty.isCsState, Ty.isCsString]
  | .bool, _, _, h => by simp only [Runs] at h; obtain ⟨_, rfl, h⟩ := h; simp [Rt.isSized, h, Ty.isCsState, Ty.isCsString]
  | .string, _, _, h => by simp only [Runs] at h; obtain ⟨_, rfl, h⟩ := h; simp [Rt.isSized, h, Ty.isCsState, Ty.isCsString]
  | .bytes, _, _, h => by simp only [Runs] at h; subst h; rfl
  | .vec _, _, _, h => by simp only [Runs] at h; obtain ⟨_, rfl, _⟩ := h; rfl
  | .array _ _, _, _, h => by simp only [Runs] at h; obtain ⟨_, rfl, _⟩ := h; rfl
  | .tuple _, _, _, h => by simp only [Runs] at h
  | .option _, _, _, h => by simp only [Runs] at h; obtain ⟨_, rfl, _⟩ := h; rfl
  | .box t, _, _, h => by simp only [Runs] at h; exact Runs.sized (t := t) h
  | .hashMap _ _, _, _, h => by simp only [Runs] at h
  | .list _, _, _, h => by simp only [Runs] at h; obtain ⟨_, rfl, _⟩ := h; rfl
  | .map _ _, _, _, h => by simp only [Runs] at h; obtain ⟨_, rfl, _⟩ := h; rfl
  | .struct _ _ _, _, _, h => by simp only [Runs] at h; obtain ⟨_, _, rfl, _⟩ := h; rfl
  | .enum _ _ _ _, _, _, h => by simp only [Runs] at h; obtain ⟨_, _, rfl, _⟩ := h; rfl

/-! ## Construction -/

theorem propIndex_get : ∀ {props : List (Text × Text)} {i : Nat} {type name : Text}, (props.map (·.2)).Nodup → props[i]? = some (type, name) →
    propIndex props name = some i
  | [], _, _, _, _, h => by simp at h
  | _ :: _, 0, _, _, _, h => by simp only [List.getElem?_cons_zero, Option.some.injEq] at h; subst h; simp [propIndex]
  | (a, b) :: props, i + 1, type, name, hn, h => by
    simp only [List.map_cons, List.nodup_cons] at hn
    simp only [List.getElem?_cons_succ] at h
    simp only [propIndex]
    rw [if_neg, propIndex_get hn.2 h]
    · rfl
    · rintro rfl
      exact hn.1 (List.mem_map.2 ⟨_, List.mem_of_getElem? h, rfl⟩)

theorem assign_ok {P : Project} {f : CsFile} {args : List Rt} {c : Class} {make : Rt → Except Exn Val} {target : List Val} :
    ∀ (ms : List Made) (xs : List Val), xs.length = target.length →
    (∀ m ∈ ms, ∃ text any τ i x, how? m.how = some (text, any) ∧ readType P f args text = some τ ∧ (any || τ.isState) = true ∧
      propIndex c.props m.prop = some i ∧ make τ = .ok x ∧ target[i]? = some x) →
    (∀ i, xs[i]? = target[i]? ∨ ∃ m ∈ ms, propIndex c.props m.prop = some i) →
    assignMade P f args c make ms (.inst xs) = .ok (.inst target)
  | [], xs, _, _, h => by
    have : xs = target := List.ext_getElem? fun i => by
      rcases h i with h | ⟨m, hm, _⟩
      · exact h
      · cases hm
    rw [this]; rfl
  | m :: ms, xs, hl, hm, h => by
    obtain ⟨text, any, τ, i, x, h1, h2, h3, h4, h5, h6⟩ := hm m (.head _)
    simp only [assignMade, h1, h2, h3, understood, h5, setProp, h4, bind, Except.bind, if_true]
    refine assign_ok ms _ (by rw [List.length_set]; exact hl) (fun m hm' => hm m (.tail _ hm')) fun j => ?_
    rw [List.getElem?_set]
    by_cases hij : i = j
    · subst hij
      rw [if_pos rfl, if_pos (by
        obtain ⟨hlt, _⟩ := List.getElem?_eq_some_iff.1 h6
        omega), h6]
      exact .inl rfl
    · rw [if_neg hij]
      rcases h j with h | ⟨m', hm', he⟩
      · exact .inl h
      · rcases List.mem_cons.1 hm' with rfl | hm'
        · rw [h4] at he; cases he; exact absurd rfl hij
        · exact .inr ⟨m', hm', he⟩

/-- Constructing a value. -/
def Builds (P : Project) (t : Ty) : Prop :=
  ∀ k τ n, k ≠ 0 → Runs P k t τ → depth t ≤ n → construct P n τ = .ok (valOf t t.csNew)

/-- All fields. -/
def AllFields (Q : Ty → Prop) (fs : Fields) : Prop := ∀ i tag attrs t, nth fs i = some (tag, attrs, t) → Q t

theorem Runs.initial {P : Project} : ∀ {t : Ty} {k : Nat} {τ : Rt}, Runs P k t τ → ∃ x, τ.initial = some x ∧ (primitive t = true → x = valOf t t.csNew)
  | .uint _, _, _, h => by simp only [Runs] at h; obtain ⟨_, rfl, h⟩ := h; exact ⟨_, by simp [Rt.initial, h]; rfl, fun _ => rfl⟩
  | .sint _, _, _, h => by simp only [Runs] at h; obtain ⟨_, rfl, h⟩ := h; exact ⟨_, by simp [Rt.initial, h]; rfl, fun _ => rfl⟩
  | .bool, _, _, h => by simp only [Runs] at h; obtain ⟨_, rfl, h⟩ := h; exact ⟨_, by simp [Rt.initial, h]; rfl, fun _ => rfl⟩
  | .string, _, _, h => by simp only [Runs] at h; obtain ⟨_, rfl, h⟩ := h; exact ⟨_, by simp [Rt.initial, h]; rfl, fun _ => rfl⟩
  | .bytes, _, _, h => by simp only [Runs] at h; subst h; exact ⟨_, rfl, fun h => nomatch h⟩
  | .vec _, _, _, h => by simp only [Runs] at h; obtain ⟨_, rfl, _⟩ := h; exact ⟨_, rfl, fun h => nomatch h⟩
  | .array _ _, _, _, h => by simp only [Runs] at h; obtain ⟨_, rfl, _⟩ := h; exact ⟨_, rfl, fun h => nomatch h⟩
  | .tuple _, _, _, h => by simp only [Runs] at h
  | .option _, _, _, h => by simp only [Runs] at h; obtain ⟨_, rfl, _⟩ := h; exact ⟨_, rfl, fun h => nomatch h⟩
  | .box t, _, _, h => by
    simp only [Runs] at h
    obtain ⟨x, h1, h2⟩ := Runs.initial (t := t) h
    exact ⟨x, h1, h2⟩
  | .hashMap _ _, _, _, h => by simp only [Runs] at h
  | .list _, _, _, h => by simp only [Runs] at h; obtain ⟨_, rfl, _⟩ := h; exact ⟨_, rfl, fun h => nomatch h⟩
  | .map _ _, _, _, h => by simp only [Runs] at h; obtain ⟨_, rfl, _⟩ := h; exact ⟨_, rfl, fun h => nomatch h⟩
  | .struct _ _ _, _, _, h => by simp only [Runs] at h; obtain ⟨_, _, rfl, _⟩ := h; exact ⟨_, rfl, fun h => nomatch h⟩
  | .enum _ _ _ _, _, _, h => by simp only [Runs] at h; obtain ⟨_, _, rfl, _⟩ := h; exact ⟨_, rfl, fun h => nomatch h⟩

theorem initials_ok {P : Project} {k : Nat} {f : CsFile} {args : List Rt} : ∀ {fs : Fields} {props : List (Text × Text)},
    RunsFields P k f args props fs → ∃ xs, initials P f args props = .ok xs ∧ xs.length = fs.tags.length ∧
      ∀ i tag attrs t, nth fs i = some (tag, attrs, t) → primitive t = true → xs[i]? = some (valOf t t.csNew)
  | .nil, _, h => by
    simp only [RunsFields] at h; subst h
    exact ⟨[], rfl, rfl, fun i tag attrs t h => nomatch h⟩
  | .cons _ _ t fs, _, h => by
    simp only [RunsFields] at h
    obtain ⟨type, name, props', τ, rfl, h1, h2, hs⟩ := h
    obtain ⟨xs, hx, hl, hv⟩ := initials_ok hs
    obtain ⟨x, hi, hp⟩ := h2.initial
    refine ⟨x :: xs, ?_, by simp [Fields.tags, hl], fun i tag attrs u hn hu => ?_⟩
    · simp only [initials, h1, understood, hi, hx, bind, Except.bind]
    · cases i with
      | zero => simp only [nth, Option.some.injEq] at hn; cases hn; simp [hp hu]
      | succ i => simp only [nth] at hn; simpa using hv i tag attrs u hn hu

theorem after_none : ∀ {c : Char} {p : Text} {d : Char} {t : Text}, c ≠ d → after? (c :: p) (d :: t) = none := fun h => by
  simp [after?, h]

theorem how_new (t : Text) : how? (lit! "new " ++ t) = some (t, false) := by
  unfold how?
  rw [after_append]

theorem how_construct (t : Text) : how? (lit! "StateFactory.Construct<" ++ t ++ lit! ">") = some (t, true) := by
  unfold how?
  have : after? (lit! "new ") (lit! "StateFactory.Construct<" ++ t ++ lit! ">") = none := rfl
  rw [this, List.append_assoc, between_append]
  rfl

theorem primitive_state : ∀ {t : Ty}, t.isCsState = !primitive t
  | .uint _ | .sint _ | .bool | .string | .bytes | .vec _ | .array _ _ | .tuple _ | .option _ | .hashMap _ _ | .list _ | .map _ _
  | .struct _ _ _ | .enum _ _ _ _ => rfl
  | .box t => primitive_state (t := t)

theorem built_class {P : Project} {k : Nat} {f : CsFile} {args : List Rt} {c : Class} {fs : Fields} {make : Rt → Except Exn Val} (hs : Served P f args c fs)
    (hr : RunsFields P k f args c.props fs)
    (hm : ∀ i tag attrs t τ, nth fs i = some (tag, attrs, t) → Runs P k t τ → make τ = .ok (valOf t t.csNew)) :
    (do let xs ← initials P f args c.props; assignMade P f args c make c.made (.inst xs)) = .ok (.inst (valsOf fs fs.csNew)) := by
  obtain ⟨xs, hx, hl, hv⟩ := initials_ok hr
  simp only [hx, bind, Except.bind]
  have index : ∀ {i tag attrs t type name}, nth fs i = some (tag, attrs, t) → c.props[i]? = some (type, name) →
      ∃ τ, readType P f args type = some τ ∧ Runs P k t τ ∧ propIndex c.props name = some i := fun {i tag attrs t type name} hn hp => by
    obtain ⟨type', name', τ, h1, h2, h3⟩ := runs_field hr hn
    rw [h1] at hp; cases hp
    exact ⟨τ, h2, h3, propIndex_get hs.names h1⟩
  refine assign_ok c.made xs (by rw [hl, valsOf_length]) (fun m hm' => ?_) fun i => ?_
  · obtain ⟨n, i, attrs, t, type, hf, hp, hc, he⟩ := hs.serves.made m hm'
    obtain ⟨tag, hn, _⟩ := nth_of_fieldAt hf
    obtain ⟨τ, h1, h2, h3⟩ := index hn hp
    have hh : how? m.how = some (type, attrs.param) := by
      rw [he]
      cases attrs.param
      · exact how_new type
      · exact how_construct type
    refine ⟨type, attrs.param, τ, i, _, hh, h1, ?_, h3, hm i tag attrs t τ hn h2, vals_new hn⟩
    rw [h2.state, primitive_state]
    rcases hc with hc | hc <;> simp [hc]
  · by_cases hi : i < fs.tags.length
    · obtain ⟨tag, attrs, t, hn⟩ := nth_some hi
      by_cases hc : attrs.param = true ∨ primitive t = false
      · obtain ⟨type, name, hp, _, _, _, _, hmade⟩ := hs.serves.known _ _ _ _ (fieldAt_of_nth hs.tags hn)
        obtain ⟨τ, _, _, h3⟩ := index hn hp
        exact .inr ⟨_, hmade hc, h3⟩
      · have : primitive t = true := by
          rw [not_or] at hc
          simpa using hc.2
        rw [hv i tag attrs t hn this, vals_new hn]
        exact .inl rfl
    · rw [List.getElem?_eq_none (by omega), List.getElem?_eq_none (by rw [valsOf_length]; omega)]
      exact .inl rfl

theorem construct_class {P : Project} {k : Nat} {f : CsFile} {args : List Rt} {c : Class} {fs : Fields} {t : Rt} {n : Nat}
    (ht : P.classOf t = some (f, args, c)) (hs : Served P f args c fs) (hr : RunsFields P k f args c.props fs) (hk : k ≠ 0)
    (hb : AllFields (Builds P) fs) (hn : depthFields fs ≤ n) : construct P (n + 1) t = .ok (.inst (valsOf fs fs.csNew)) := by
  have := built_class (make := construct P n) hs hr fun i tag attrs t τ hnth hrun => hb i tag attrs t hnth k τ n hk hrun
    (Nat.le_trans (nth_depth hnth) hn)
  match t, ht with
  | .message _ _, ht | .variant _ _ _, ht =>
    unfold construct
    simp only [ht, understood, bind, Except.bind, hs.serves.isEnum, Bool.false_eq_true, if_false] at this ⊢
    exact this

mutual
theorem builds (P : Project) : (t : Ty) → Builds P t
  | .uint w => fun k τ n _ h hd => by
    simp only [Runs] at h; obtain ⟨m, rfl, h⟩ := h
    obtain ⟨n, rfl⟩ : ∃ m, n = m + 1 := ⟨n - 1, by simp only [depth] at hd; omega⟩
    simp [construct, h, understood, Prim.default, valOf, Ty.csNew]
  | .sint w => fun k τ n _ h hd => by
    simp only [Runs] at h; obtain ⟨m, rfl, h⟩ := h
    obtain ⟨n, rfl⟩ : ∃ m, n = m + 1 := ⟨n - 1, by simp only [depth] at hd; omega⟩
    simp [construct, h, understood, Prim.default, valOf, Ty.csNew]
  | .bool => fun k τ n _ h hd => by
    simp only [Runs] at h; obtain ⟨m, rfl, h⟩ := h
    obtain ⟨n, rfl⟩ : ∃ m, n = m + 1 := ⟨n - 1, by simp only [depth] at hd; omega⟩
    simp [construct, h, understood, Prim.default, valOf, Ty.csNew]
  | .string => fun k τ n _ h hd => by
    simp only [Runs] at h; obtain ⟨m, rfl, h⟩ := h
    obtain ⟨n, rfl⟩ : ∃ m, n = m + 1 := ⟨n - 1, by simp only [depth] at hd; omega⟩
    simp [construct, h, understood, Prim.default, valOf, Ty.csNew]
  | .bytes => fun k τ n _ h hd => by
    simp only [Runs] at h; subst h
    obtain ⟨n, rfl⟩ : ∃ m, n = m + 1 := ⟨n - 1, by simp only [depth] at hd; omega⟩
    rfl
  | .vec _ => fun k τ n _ h hd => by
    simp only [Runs] at h; obtain ⟨_, rfl, _⟩ := h
    obtain ⟨n, rfl⟩ : ∃ m, n = m + 1 := ⟨n - 1, by simp only [depth] at hd; omega⟩
    rfl
  | .array _ _ => fun k τ n _ h hd => by
    simp only [Runs] at h; obtain ⟨_, rfl, _⟩ := h
    obtain ⟨n, rfl⟩ : ∃ m, n = m + 1 := ⟨n - 1, by simp only [depth] at hd; omega⟩
    rfl
  | .tuple _ => fun k τ n _ h _ => by simp only [Runs] at h
  | .option _ => fun k τ n _ h hd => by
    simp only [Runs] at h; obtain ⟨_, rfl, _⟩ := h
    obtain ⟨n, rfl⟩ : ∃ m, n = m + 1 := ⟨n - 1, by simp only [depth] at hd; omega⟩
    rfl
  | .box t => fun k τ n hk h hd => by
    simp only [Runs] at h; simp only [depth] at hd
    exact builds P t k τ n hk h hd
  | .hashMap _ _ => fun k τ n _ h _ => by simp only [Runs] at h
  | .list _ => fun k τ n _ h hd => by
    simp only [Runs] at h; obtain ⟨_, rfl, _⟩ := h
    obtain ⟨n, rfl⟩ : ∃ m, n = m + 1 := ⟨n - 1, by simp only [depth] at hd; omega⟩
    rfl
  | .map _ _ => fun k τ n _ h hd => by
    simp only [Runs] at h; obtain ⟨_, rfl, _⟩ := h
    obtain ⟨n, rfl⟩ : ∃ m, n = m + 1 := ⟨n - 1, by simp only [depth] at hd; omega⟩
    rfl
  | .struct _ _ fs => fun k τ n hk h hd => by
    simp only [Runs] at h; obtain ⟨x, args, rfl, h⟩ := h
    obtain ⟨f, hf, hs, hr⟩ := h hk
    simp only [depth] at hd
    obtain ⟨n, rfl⟩ : ∃ m, n = m + 1 := ⟨n - 1, by omega⟩
    exact construct_class (by simp [Project.classOf, hf]) hs hr hk (buildsFields P fs) (by omega)
  | .enum _ _ fs vs => fun k τ n hk h hd => by
    simp only [Runs] at h; obtain ⟨x, args, rfl, h⟩ := h
    obtain ⟨f, names, hf, he, _, ⟨v, c, hv, ht, hc, hs, hr⟩, _⟩ := h hk
    simp only [depth] at hd
    obtain ⟨n, rfl⟩ : ∃ m, n = m + 2 := ⟨n - 2, by omega⟩
    have h1 := construct_class hc hs hr hk (buildsFields P fs) (n := n) (by omega)
    obtain ⟨_, hnew, _⟩ := he.known 0 v hv
    obtain ⟨stmt, hst, hnew⟩ := Option.bind_eq_some_iff.1 hnew
    unfold construct
    simp only [Project.classOf, hf, Option.map_some, understood, he.isEnum, he.start, hst, hnew, ht, h1, bind, Except.bind, if_true]
    rfl

theorem buildsFields (P : Project) : (fs : Fields) → AllFields (Builds P) fs
  | .nil => fun i tag attrs t h => nomatch h
  | .cons _ _ t fs => fun i tag attrs u h => by
    cases i with
    | zero => simp only [nth, Option.some.injEq] at h; cases h; exact builds P t
    | succ i => exact buildsFields P fs i tag attrs u h
end

end Steit.Gen
