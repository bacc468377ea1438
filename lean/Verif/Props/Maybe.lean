import Verif.Model.Maybe
import Verif.Props.Equality
import Verif.Props.Setters

/-!
# `Maybe<T>`: properties C52 and C53

C52: as data, a `Maybe` is an `Option`. C53: its constructors do not put it at the runtime they are given.
-/

namespace Steit
open Spec

/-! ## C52 -/

/-- C52: `from_option` and `to_option` are inverse (up to runtimes), and `is_some`/`is_none` say which case it is. -/
theorem C52_option_roundtrip (t : Ty) (rt : Rt) (o : Option t.El) (v : (maybeTy t).El) :
    maybeToOption (maybeFromOption rt o) = o ∧ Same (maybeTy t) (maybeFromOption rt (maybeToOption v)) v ∧
      maybeIsSome v = (maybeToOption v).isSome ∧ maybeIsNone v = (maybeToOption v).isNone := by
  refine ⟨by cases o <;> rfl, ?_, ?_, ?_⟩ <;> obtain ⟨rt', v⟩ := v <;> rcases v with _ | ⟨x, _⟩ | v <;> first | rfl | nomatch v

/-- C52: comparing a `Maybe` with an `Option` agrees with comparing two `Maybe`s, and is comparison of the data. -/
theorem C52_compares_like_option (t : Ty) (rt : Rt) (v : (maybeTy t).El) (o : Option t.El) (hv : ∀ x ∈ maybeToOption v, Keyed t x)
    (ho : ∀ x ∈ o, Keyed t x) :
    (maybeEqOption v o = true ↔ Equal (.option t) (maybeToOption v) o) ∧
      ((maybeTy t).eq v (maybeFromOption rt o) = true ↔ Equal (.option t) (maybeToOption v) o) := by
  obtain ⟨rt', v⟩ := v
  rcases v with _ | ⟨x, _⟩ | v
  · cases o <;> simp [maybeEqOption, maybeToOption, maybeFromOption, maybeSome, maybeNone, Equal, maybeTy, Ty.eq, Fields.eq]
  · cases o with
    | none => simp [maybeEqOption, maybeToOption, maybeFromOption, maybeNone, Equal, maybeTy, Ty.eq]
    | some y =>
      have h1 := eq_iff t x y (hv x rfl) (ho y rfl)
      have h2 := eq_iff t y x (ho y rfl) (hv x rfl)
      have h3 : Equal t y x ↔ Equal t x y := ⟨equal_symm t y x, equal_symm t x y⟩
      simp [maybeEqOption, maybeToOption, maybeFromOption, maybeSome, Equal, maybeTy, Ty.eq, Variants.eq, Fields.eq, h1, h2, h3]
  · nomatch v

/-- C52 on the wire: what is written depends on the option only, and distinguishes `None` from `Some` of a default value. -/
theorem C52_written_like_option (t : Ty) (rt rt' : Rt) (o : Option t.El) (x : t.El) :
    encode (maybeTy t) (maybeFromOption rt o) = encode (maybeTy t) (maybeFromOption rt' o) ∧
      encode (maybeTy t) (maybeFromOption rt none) ≠ encode (maybeTy t) (maybeFromOption rt (some x)) := by
  refine ⟨by cases o <;> rfl, fun h => ?_⟩
  have h1 : leb 0 ++ encodeFields .nil () = leb 1 ++ encodeFields (.cons 0#32 {} t .nil) (x, ()) := h
  have h2 := congrArg List.head? h1
  simp [leb] at h2

/-- Not vacuous: `Some(7)` compared with `Some(7)` and with `None`. -/
example : maybeEqOption (t := .uint .w8) (maybeSome ⟨3, []⟩ 7#8) (some 7#8) = true ∧
    maybeEqOption (t := .uint .w8) (maybeSome ⟨3, []⟩ 7#8) none = false ∧
    (∀ x ∈ maybeToOption (t := .uint .w8) (maybeSome ⟨3, []⟩ 7#8), Keyed (.uint .w8) x) :=
  ⟨rfl, rfl, fun _ _ => trivial⟩

/-! ## C53 -/

private theorem runEnum_parent {γ : Type} {d : Dict (EnumV γ)} {vs : VariantsD γ} {m : Mode} {tag : U32} {isSet : Bool}
    {runFields : Rt → γ → Exec γ} {v v' : EnumV γ} {w : World} (h : vs.tagOf v.val ≠ tag ∧ isSet = true)
    (hp : v.rt.parent = v'.rt.parent) (hv : v.val = v'.val) (hc : ∀ rt : Rt, ∃ x, vs.ctor tag (some (rt.nested tag)) = some x) :
    runEnum d vs m tag isSet runFields v w = runEnum d vs m tag isSet runFields v' w := by
  unfold runEnum
  rw [← hv, ← hp]
  refine congrArg (fun a : Exec (EnumV γ) => (a >>= _) w) ?_
  rw [if_pos h, if_pos h]
  congr 1
  funext runtime
  obtain ⟨x, hx⟩ := hc runtime
  rw [hx]

/-- C53 is false: whatever the runtime, `Maybe::none(rt)` and `Maybe::some(rt, x)` do not sit at `rt`: the stored runtime lacks
the variant tag. -/
theorem C53_constructors_misplaced_false (t : Ty) (rt : Rt) (o : Option t.El) :
    ¬ At (maybeTy t) rt (maybeFromOption rt o) := by
  intro h
  have hne : ∀ k, rt ≠ rt.nested k := fun k hk => by
    have := congrArg (fun r => r.path.length) hk
    simp [Rt.nested] at this
  cases o with
  | none =>
    have h1 : (true = true → rt = rt.nested 0#32) ∧ _ := h
    exact hne _ (h1.1 rfl)
  | some x =>
    have h1 : (true = true → rt = rt.nested 1#32) ∧ _ := h
    exact hne _ (h1.1 rfl)

/-- C53, consequence at the root: replaying into such a `Maybe` panics, whatever the log. -/
theorem C53_root_replay_panics (t : Ty) (id : Nat) (o : Option t.El) (m : Mode) (log : Bytes) :
    replay (maybeTy t).dict m (maybeFromOption ⟨id, []⟩ o) log = .err (maybeFromOption ⟨id, []⟩ o) .panic := by
  have h : (maybeTy t).dict.isRoot (maybeFromOption ⟨id, []⟩ o) = .error .panic := by cases o <;> rfl
  unfold replay
  rw [h]

/-- C53, consequence at the root: setting the value of such a `None` panics. -/
theorem C53_root_setter_panics (t : Ty) (id : Nat) (x : t.El) (m : Mode) (w : World) :
    (maybeTy t).run m (maybeSetValue x) (maybeNone t ⟨id, []⟩) w = (.error .panic, w) := rfl

/-- C53, consequence below the root: setting the value of a `None` built for position `k` of an object at `rt` logs an update of
that object itself, not of its part `k`, with the bytes of a `Maybe` as payload; and a second one inside it. -/
theorem C53_nested_setter_overwrites_container (t : Ty) (ht : t.WF) (hs : t.isState = true) (rt : Rt) (k : U32) (x : t.El)
    (hx : Sendable t x) (hat : ∃ rt0, At t rt0 x)
    (hd : (encode (maybeTy t) (maybeSome rt (initial t))).length < 2 ^ 32) (m : Mode) (w : World) :
    ∃ v' w', (maybeTy t).run m (maybeSetValue x) (maybeNone t (rt.nested k)) w = (.ok v', w') ∧
      Same (maybeTy t) v' (maybeSome rt x) ∧
      Logged rt w w' [.update [] (encode (maybeTy t) (maybeSome rt (initial t))), .update [1#32, 0#32] (encode t x)] := by
  have hwf : (maybeTy t).WF := by
    refine ⟨List.nodup_nil, trivial, List.pairwise_singleton _ _, ?_, by decide, List.pairwise_singleton _ _,
      ⟨by decide, fun _ => hs, ht, trivial⟩, trivial⟩
    show ¬ 0#32 ∈ [1#32]
    decide
  have hrun : (maybeTy t).run m (maybeSetValue x) (maybeNone t (rt.nested k)) w =
      (maybeTy t).run m (maybeSetValue x) (maybeNone t (rt.nested 0#32)) w := by
    have h1 : (rt.nested k).parent = (rt.nested 0#32).parent := by rw [Rt.parent_nested', Rt.parent_nested']
    exact runEnum_parent (v := maybeNone t (rt.nested k)) (v' := maybeNone t (rt.nested 0#32)) ⟨(by decide : ¬ 0#32 = 1#32), rfl⟩ h1 rfl
      (fun _ => ⟨_, rfl⟩)
  rw [hrun]
  have := C39_enum_setter false .nil (.cons 1#32 true (.cons 0#32 {} t .nil) .nil) hwf m (maybeSetValue x)
    (maybeNone t (rt.nested 0#32)) rt w ⟨fun _ => rfl, trivial⟩ trivial ⟨rfl, hx, hat⟩ (fun _ => hd)
  obtain ⟨v', w', h1, h2, h3, h4, _⟩ := this
  exact ⟨v', w', h1, h2, h4⟩

/-- Not vacuous: part 5 of the object at path `[2]`, set to 7. -/
example (w : World) : ∃ v' w', (maybeTy (.uint .w8)).run .debug (maybeSetValue (t := .uint .w8) 7#8)
      (maybeNone (.uint .w8) ((⟨3, [2#32]⟩ : Rt).nested 5#32)) w = (.ok v', w') ∧
    Same (maybeTy (.uint .w8)) v' (maybeSome (t := .uint .w8) ⟨3, [2#32]⟩ 7#8) ∧
      Logged ⟨3, [2#32]⟩ w w' [.update [] (encode (maybeTy (.uint .w8)) (maybeSome (t := .uint .w8) ⟨3, [2#32]⟩ (initial (.uint .w8)))),
        .update [1#32, 0#32] (encode (.uint .w8) 7#8)] :=
  C53_nested_setter_overwrites_container (.uint .w8) trivial rfl ⟨3, [2#32]⟩ 5#32 7#8 ⟨trivial, by decide +kernel⟩ ⟨⟨0, []⟩, trivial⟩
    (by decide +kernel) .debug w

/-- C53 where it holds: `set_runtime`, which `List::push` and the setters of fields call, puts a `Maybe` in its place, whatever
runtime it was built with. -/
theorem C53_set_runtime_repairs_partial (t : Ty) (ht : t.WF) (rt rt' : Rt) (o : Option t.El)
    (h : ∀ x ∈ o, ∃ rt0, At t rt0 x) : At (maybeTy t) rt' ((maybeTy t).dict.setRuntime rt' (maybeFromOption rt o)) := by
  cases o with
  | none => exact ⟨fun _ => rfl, trivial⟩
  | some x =>
    obtain ⟨rt0, h0⟩ := h x rfl
    exact ⟨fun _ => rfl, (anyLaw t ht).at_set _ _ x h0, trivial⟩

/-- C53 on a concrete history: a `None` is pushed to a list by `push_with(|rt| Maybe::none(rt))` and its value then set to 7. The
source holds `[Some(7)]`. Its log replaces the whole list by the bytes of a `Maybe`, and replaying it fails. -/
theorem C53_replica_fails_false :
    ∃ (v : (Ty.list (maybeTy (.uint .w8))).El) (w : World),
      (calls (.list (maybeTy (.uint .w8))) .release
        [.pushWith (fun rt => pure (maybeNone (.uint .w8) rt)), .item 0 (maybeSetValue (t := .uint .w8) 7#8)] ⟨⟨4, []⟩, []⟩ blank) =
        (.ok v, w) ∧
      v.items.map maybeToOption = [some 7#8] ∧
      (w.loggers 4).entries = [.listPush [] [0#8], .update [] [1#8], .update [1#32, 0#32] [7#8]] ∧
      ∀ v', applyAll (Ty.list (maybeTy (.uint .w8))).dict .release ⟨⟨7, []⟩, []⟩ (w.loggers 4).entries ≠ .ok v' :=
  ⟨_, _, rfl, rfl, rfl, fun _ h => nomatch h⟩

end Steit
