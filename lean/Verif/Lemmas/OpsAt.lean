import Verif.Lemmas.SetRuntime
import Verif.Lemmas.Replay
import Verif.Spec.Ops

/-! # API calls keep every object at its address -/

namespace Steit
open Spec

/-! ### Executions -/

theorem Exec.run_bind {α β : Type} (x : Exec α) (f : α → Exec β) (w : World) :
    (x >>= f) w = match x w with
      | (.ok a, w') => f a w'
      | (.error e, w') => (.error e, w') := by
  show (Exec.bind x f) w = _
  induction x generalizing w with
  | ret r => cases r <;> rfl
  | act id g k ih => exact ih _ _
  | mem k ih => exact ih _ _

theorem Exec.bind_ok {α β : Type} {x : Exec α} {f : α → Exec β} {w w' : World} {b : β}
    (h : (x >>= f) w = (.ok b, w')) : ∃ a w1, x w = (.ok a, w1) ∧ f a w1 = (.ok b, w') := by
  rw [Exec.run_bind] at h
  cases hx : x w with
  | mk r w1 =>
    cases r with
    | ok a => rw [hx] at h; exact ⟨a, w1, rfl, h⟩
    | error e => rw [hx] at h; cases h

theorem Exec.map_ok {α β : Type} {x : Exec α} {f : α → β} {w w' : World} {b : β}
    (h : (f <$> x) w = (.ok b, w')) : ∃ a, x w = (.ok a, w') ∧ b = f a := by
  change (x >>= fun a => Exec.pure (f a)) w = _ at h
  obtain ⟨a, w1, h1, h2⟩ := Exec.bind_ok (x := x) (f := fun a => Exec.pure (f a)) h
  cases h2
  exact ⟨a, h1, rfl⟩

theorem Exec.pure_ok {α : Type} {a b : α} {w w' : World} (h : (Pure.pure a : Exec α) w = (.ok b, w')) :
    b = a ∧ w' = w := by
  cases h; exact ⟨rfl, rfl⟩

theorem Exec.bind_of {α β : Type} {x : Exec α} {f : α → Exec β} {w w1 : World} {a : α} (h : x w = (.ok a, w1)) :
    (x >>= f) w = f a w1 := by
  rw [Exec.run_bind, h]

theorem Exec.map_of {α β : Type} {x : Exec α} {f : α → β} {w w1 : World} {a : α} (h : x w = (.ok a, w1)) :
    (f <$> x) w = (.ok (f a), w1) := by
  show (x >>= fun a => Exec.pure (f a)) w = _
  rw [Exec.run_bind, h]
  rfl

/-! ### Shapes -/

theorem at_prim : (t : Ty) → t.isState = true → shape t = .prim → ∀ rt v, At t rt v
  | .uint _, _, _, _, _ => trivial
  | .sint _, _, _, _, _ => trivial
  | .bool, _, _, _, _ => trivial
  | .box t, h, hp, rt, v => at_prim t h hp rt v

theorem wire_shape : (t : Ty) → t.isState = true → (t.dict.wire = .sized ↔ shape t ≠ .prim)
  | .uint _, _ => by constructor <;> intro h <;> first | cases h | exact absurd rfl h
  | .sint _, _ => by constructor <;> intro h <;> first | cases h | exact absurd rfl h
  | .bool, _ => by constructor <;> intro h <;> first | cases h | exact absurd rfl h
  | .box t, h => wire_shape t h
  | .list _, _ => by constructor <;> intro _ <;> first | rfl | (intro h; cases h)
  | .map _ _, _ => by constructor <;> intro _ <;> first | rfl | (intro h; cases h)
  | .struct true _ _, _ => by constructor <;> intro _ <;> first | rfl | (intro h; cases h)
  | .enum true _ _ _, _ => by constructor <;> intro _ <;> first | rfl | (intro h; cases h)

theorem Rt.sibling_nested (rt : Rt) (k j : U32) : (rt.nested k).sibling j = .ok (rt.nested j) := by
  cases rt; simp [Rt.nested, Rt.sibling]

/-! ### Lists and maps -/

theorem at_list_set {t : Ty} {rt : Rt} {items : List t.El} {i : Nat} {y : t.El}
    (h : ∀ j x, items[j]? = some x → At t (rt.nested (fieldNo j)) x) (hy : At t (rt.nested (fieldNo i)) y) :
    ∀ j x, (items.set i y)[j]? = some x → At t (rt.nested (fieldNo j)) x := by
  intro j z hz
  rw [List.getElem?_set] at hz
  split at hz
  · next hi =>
    subst hi
    split at hz
    · cases hz; exact hy
    · cases hz
  · exact h j z hz

theorem at_list_dropLast {t : Ty} {rt : Rt} {items : List t.El}
    (h : ∀ j x, items[j]? = some x → At t (rt.nested (fieldNo j)) x) :
    ∀ j x, (items.dropLast)[j]? = some x → At t (rt.nested (fieldNo j)) x := by
  intro i x hx
  rw [List.getElem?_dropLast] at hx
  split at hx
  · exact h i x hx
  · cases hx

theorem at_pushWith {t : Ty} {m : Mode} {l l' : ListV t.El} {rt : Rt} {f : Rt → Exec t.El} {w w' : World} {i : Nat}
    (hl : At (.list t) rt l) (hf : ∀ w x w', f (rt.nested (fieldNo l.items.length)) w = (.ok x, w') →
      At t (rt.nested (fieldNo l.items.length)) x) (h : listPushWith t.dict m l f w = (.ok (i, l'), w')) :
    At (.list t) rt l' := by
  unfold listPushWith at h
  obtain ⟨_, w1, _, h⟩ := Exec.bind_ok h
  obtain ⟨x, w2, hx, h⟩ := Exec.bind_ok h
  obtain ⟨_, w3, _, h⟩ := Exec.bind_ok h
  obtain ⟨_, w4, _, h⟩ := Exec.bind_ok h
  obtain ⟨h, _⟩ := Exec.pure_ok h
  obtain ⟨_, rfl⟩ := Prod.mk.inj h
  rw [hl.1] at hx
  exact ⟨hl.1, listAt_snoc hl.2 (hf w1 x w2 hx)⟩

theorem at_pop {t : Ty} {l l' : ListV t.El} {rt : Rt} {w w' : World} {o : Option t.El} (hl : At (.list t) rt l)
    (h : listPop l w = (.ok (o, l'), w')) : At (.list t) rt l' := by
  unfold listPop at h
  split at h
  · obtain ⟨_, w1, _, h⟩ := Exec.bind_ok h
    obtain ⟨h, _⟩ := Exec.pure_ok h
    obtain ⟨_, rfl⟩ := Prod.mk.inj h
    exact ⟨hl.1, at_list_dropLast hl.2⟩
  · obtain ⟨h, _⟩ := Exec.pure_ok h
    obtain ⟨_, rfl⟩ := Prod.mk.inj h
    exact hl

theorem at_swapRemove {t : Ty} (hs : t.isState = true) (ht : t.WF) {m : Mode} {l l' : ListV t.El} {rt : Rt} {i : Nat}
    {w w' : World} {o : Option t.El} (hl : At (.list t) rt l) (he : shape t = .enum → l.items.length ≤ i + 1)
    (h : listSwapRemove t.dict m l i w = (.ok (o, l'), w')) : At (.list t) rt l' := by
  unfold listSwapRemove at h
  have stay : (pure (none, l) : Exec (Option t.El × ListV t.El)) w = (.ok (o, l'), w') → At (.list t) rt l' := by
    intro h
    obtain ⟨h, _⟩ := Exec.pure_ok h
    obtain ⟨_, rfl⟩ := Prod.mk.inj h
    exact hl
  cases hr : l.items[i]? with
  | none => rw [hr] at h; exact stay h
  | some removed =>
    cases hla : l.items.getLast? with
    | none => rw [hr, hla] at h; exact stay h
    | some last =>
      rw [hr, hla] at h
      simp only at h
      split at h
      · exact at_pop hl h
      · next hne =>
        have hi : i < l.items.length := (List.getElem?_eq_some_iff.1 hr).1
        have hlast : At t (rt.nested (fieldNo (l.items.length - 1))) last := by
          refine hl.2 _ _ ?_
          rw [← List.getLast?_eq_getElem?, hla]
        obtain ⟨bytes, w1, _, h⟩ := Exec.bind_ok h
        obtain ⟨_, w2, _, h⟩ := Exec.bind_ok h
        split at h
        · next hw =>
          obtain ⟨rt', w3, hrt, h⟩ := Exec.bind_ok h
          obtain ⟨h, _⟩ := Exec.pure_ok h
          obtain ⟨_, rfl⟩ := Prod.mk.inj h
          have hrun := runtime_at t hs _ removed (hl.2 i removed hr)
          have hrt' : rt' = rt.nested (fieldNo i) := by
            cases hsh : shape t with
            | prim => exact absurd hsh ((wire_shape t hs).1 hw)
            | plain =>
              rw [hsh] at hrun
              simp only at hrun
              rw [hrun] at hrt
              simp only [Rt.sibling_nested] at hrt
              cases hrt; rfl
            | enum => have := he hsh; omega
          subst hrt'
          exact ⟨hl.1, at_list_dropLast (at_list_set hl.2 ((anyLaw t ht).at_set _ _ _ hlast))⟩
        · next hw =>
          have hp : shape t = .prim := by
            cases hsh : shape t with
            | prim => rfl
            | plain => exact absurd ((wire_shape t hs).2 (by rw [hsh]; intro h; cases h)) hw
            | enum => exact absurd ((wire_shape t hs).2 (by rw [hsh]; intro h; cases h)) hw
          obtain ⟨h, _⟩ := Exec.pure_ok h
          obtain ⟨_, rfl⟩ := Prod.mk.inj h
          exact ⟨hl.1, at_list_dropLast (at_list_set hl.2 (at_prim t hs hp _ _))⟩

theorem at_map_insert {t : Ty} {k : KeyTy} {rt : Rt} {v : MapV t.El} {key : U32} {x : t.El} (hv : At (.map k t) rt v)
    (hx : At t (rt.nested key) x) : At (.map k t) rt { v with entries := entriesInsert key x v.entries } := by
  refine ⟨hv.1, entriesInsert_nodup _ _ _ hv.2.1, fun e he => ?_⟩
  rcases entriesInsert_mem he with h | rfl
  · exact hv.2.2 e h
  · exact hx

theorem at_mapInsert {t : Ty} {k : KeyTy} {m : Mode} {v v' : MapV t.El} {rt : Rt} {key : U32} {x : t.El} {w w' : World}
    {o : Option t.El} (hv : At (.map k t) rt v) (hx : At t (rt.nested key) x)
    (h : mapInsert t.dict m v key x w = (.ok (o, v'), w')) : At (.map k t) rt v' := by
  unfold mapInsert at h
  obtain ⟨_, w1, _, h⟩ := Exec.bind_ok h
  obtain ⟨h, _⟩ := Exec.pure_ok h
  obtain ⟨_, rfl⟩ := Prod.mk.inj h
  exact at_map_insert hv hx

/-! ### Enums -/

/-- The variants of an enum, the default one first. -/
abbrev allVariants (cached : Bool) (fs : Fields) (vs : Variants) : Variants := .cons 0#32 cached fs vs

theorem enum_run_eq (cached : Bool) (fs : Fields) (vs : Variants) (m : Mode) (op : (Ty.enum true cached fs vs).Op)
    (v : (Ty.enum true cached fs vs).El) :
    (Ty.enum true cached fs vs).run m op v =
      runEnum (Ty.enum true cached fs vs).dict ((allVariants cached fs vs).dict true) m ((allVariants cached fs vs).opTag op)
        ((allVariants cached fs vs).isSet op) (fun rt val => (allVariants cached fs vs).run m rt op val) v := by
  rcases op with op | op
  · simp only [Ty.run]
    unfold runEnum
    refine congrArg (Exec.bind _) ?_
    funext u
    refine congrArg (fun q => Exec.bind q _) ?_
    rcases u with ⟨_, x | x⟩ <;> rfl
  · simp only [Ty.run]
    unfold runEnum
    refine congrArg (Exec.bind _) ?_
    funext u
    refine congrArg (fun q => Exec.bind q _) ?_
    rcases u with ⟨_, x | x⟩ <;> rfl

theorem opAddr_enum (cached : Bool) (fs : Fields) (vs : Variants) (op : (Ty.enum true cached fs vs).Op)
    (v : (Ty.enum true cached fs vs).El) :
    OpAddr (.enum true cached fs vs) op v ↔ OpAddrVariant (allVariants cached fs vs) op v.val := by
  rcases v with ⟨_, x | x⟩ <;> rcases op with op | op <;> exact Iff.rfl

theorem at_enum_iff (cached : Bool) (fs : Fields) (vs : Variants) (rt : Rt) (v : (Ty.enum true cached fs vs).El) :
    At (.enum true cached fs vs) rt v ↔
      v.rt = rt.nested (((allVariants cached fs vs).dict true).tagOf v.val) ∧ VarAt (allVariants cached fs vs) true rt v.val := by
  have : At (.enum true cached fs vs) rt v ↔ AtVariant (allVariants cached fs vs) true rt v.rt v.val := by
    rcases v with ⟨_, x | x⟩ <;> exact Iff.rfl
  rw [this, atVariant_iff]
  simp

theorem opAddr_switch : (vs : Variants) → ∀ op v, vs.isSet op = true → (vs.dict true).tagOf v ≠ vs.opTag op →
    OpAddrVariant vs op v → ∀ x, OpAddrVariant vs op x
  | .nil, op, _, _, _, _, _ => nomatch op
  | .cons _ _ _ _, .inl _, .inl _, _, hne, _, _ => absurd rfl hne
  | .cons _ _ _ _, .inl _, .inr _, hs, _, h, .inl x => h hs x
  | .cons _ _ _ _, .inl _, .inr _, hs, _, h, .inr _ => fun _ => h hs
  | .cons _ _ _ _, .inr _, .inl _, hs, _, h, .inl _ => fun _ => h hs
  | .cons _ _ _ _, .inr _, .inl _, hs, _, h, .inr x => h hs x
  | .cons _ _ _ vs, .inr op, .inr v, hs, hne, h, .inl _ => fun _ => opAddr_switch vs op v hs hne h
  | .cons _ _ _ vs, .inr op, .inr v, hs, hne, h, .inr x => opAddr_switch vs op v hs hne h x

theorem at_runCons {fs : Fields} {vs : Variants}
    (hf : ∀ m op v rt w v' w', AtFields fs true rt v → OpAddrFields fs op v → fs.run m rt op v w = (.ok v', w') →
      AtFields fs true rt v')
    (hv : ∀ m op v rt w v' w', VarAt vs true rt v → OpAddrVariant vs op v →
      vs.run m (rt.nested ((vs.dict true).tagOf v)) op v w = (.ok v', w') →
      VarAt vs true rt v' ∧ (vs.dict true).tagOf v' = (vs.dict true).tagOf v) (tag : U32) (cached : Bool) (m : Mode)
    (op : (Variants.cons tag cached fs vs).Op) (v : (Variants.cons tag cached fs vs).El) (rt : Rt) (w : World)
    (v' : (Variants.cons tag cached fs vs).El) (w' : World) (ha : VarAt (.cons tag cached fs vs) true rt v)
    (ho : OpAddrVariant (.cons tag cached fs vs) op v)
    (h : (Variants.cons tag cached fs vs).run m (rt.nested (((Variants.cons tag cached fs vs).dict true).tagOf v)) op v w =
      (.ok v', w')) :
    VarAt (.cons tag cached fs vs) true rt v' ∧
      ((Variants.cons tag cached fs vs).dict true).tagOf v' = ((Variants.cons tag cached fs vs).dict true).tagOf v := by
  rcases op with op | op <;> rcases v with v | v
  · simp only [Variants.run] at h
    obtain ⟨x, h1, rfl⟩ := Exec.map_ok h
    exact ⟨hf m op v _ w x w' ha ho h1, rfl⟩
  · simp only [Variants.run] at h
    rw [(Exec.pure_ok h).1]
    exact ⟨ha, rfl⟩
  · simp only [Variants.run] at h
    rw [(Exec.pure_ok h).1]
    exact ⟨ha, rfl⟩
  · simp only [Variants.run] at h
    obtain ⟨x, h1, rfl⟩ := Exec.map_ok h
    exact hv m op v rt w x w' ha ho h1

mutual
theorem at_run : (t : Ty) → t.WF → ∀ m op v rt w v' w', At t rt v → OpAddr t op v → t.run m op v w = (.ok v', w') →
    At t rt v'
  | .uint _, _, _, op, _, _, _, _, _, _, _, _ => nomatch op
  | .sint _, _, _, op, _, _, _, _, _, _, _, _ => nomatch op
  | .bool, _, _, op, _, _, _, _, _, _, _, _ => nomatch op
  | .string, _, _, op, _, _, _, _, _, _, _, _ => nomatch op
  | .bytes, _, _, op, _, _, _, _, _, _, _, _ => nomatch op
  | .vec _, _, _, op, _, _, _, _, _, _, _, _ => nomatch op
  | .array _ _, _, _, op, _, _, _, _, _, _, _, _ => nomatch op
  | .tuple _, _, _, op, _, _, _, _, _, _, _, _ => nomatch op
  | .option _, _, _, op, _, _, _, _, _, _, _, _ => nomatch op
  | .hashMap _ _, _, _, op, _, _, _, _, _, _, _, _ => nomatch op
  | .struct false _ _, _, _, op, _, _, _, _, _, _, _, _ => nomatch op
  | .enum false _ _ _, _, _, op, _, _, _, _, _, _, _, _ => nomatch op
  | .box t, ht, m, op, v, rt, w, v', w', hv, ho, h => at_run t ht m op v rt w v' w' hv ho h
  | .list t, ht, m, op, v, rt, w, v', w', hv, ho, h => by
    cases op with
    | item i op =>
      simp only [Ty.run, runList] at h
      cases hx : v.items[i]? with
      | none =>
        rw [hx] at h
        rw [(Exec.pure_ok h).1]; exact hv
      | some x =>
        rw [hx] at h
        obtain ⟨y, w1, h1, h2⟩ := Exec.bind_ok h
        rw [(Exec.pure_ok h2).1]
        exact ⟨hv.1, at_list_set hv.2 (at_run t ht.2 m op x _ w y w1 (hv.2 i x hx) (ho x hx) h1)⟩
    | push x =>
      obtain ⟨a, h1, rfl⟩ := Exec.map_ok h
      obtain ⟨rt0, hx⟩ := ho
      refine at_pushWith hv (fun w y w' hy => ?_) h1
      rw [(Exec.pure_ok hy).1]
      exact (anyLaw t ht.2).at_set _ _ _ hx
    | pushWith f =>
      obtain ⟨a, h1, rfl⟩ := Exec.map_ok h
      exact at_pushWith hv (fun w y w' hy => ho _ w y w' hy) h1
    | pop =>
      obtain ⟨a, h1, rfl⟩ := Exec.map_ok h
      exact at_pop hv h1
    | swapRemove i =>
      obtain ⟨a, h1, rfl⟩ := Exec.map_ok h
      exact at_swapRemove ht.1 ht.2 hv ho h1
  | .map k t, ht, m, op, v, rt, w, v', w', hv, ho, h => by
    cases op with
    | value key op =>
      simp only [Ty.run, runMap] at h
      cases hx : entriesGet key v.entries with
      | none =>
        rw [hx] at h
        rw [(Exec.pure_ok h).1]; exact hv
      | some x =>
        rw [hx] at h
        obtain ⟨y, w1, h1, h2⟩ := Exec.bind_ok h
        rw [(Exec.pure_ok h2).1]
        have hm := entriesGet_mem hx
        exact at_map_insert hv (at_run t ht.2 m op x _ w y w1 (hv.2.2 _ hm) (ho _ hm rfl) h1)
    | insert key x =>
      obtain ⟨a, h1, rfl⟩ := Exec.map_ok h
      change At t (v.rt.nested key) x at ho
      rw [hv.1] at ho
      exact at_mapInsert hv ho h1
    | insertWith key f =>
      obtain ⟨a, h1, rfl⟩ := Exec.map_ok h
      unfold mapInsertWith at h1
      obtain ⟨_, w1, _, h1⟩ := Exec.bind_ok h1
      obtain ⟨x, w2, hx, h1⟩ := Exec.bind_ok h1
      obtain ⟨_, w3, _, h1⟩ := Exec.bind_ok h1
      rw [hv.1] at hx
      exact at_mapInsert hv (ho _ _ _ _ hx) h1
    | remove key =>
      obtain ⟨a, h1, rfl⟩ := Exec.map_ok h
      unfold mapRemove at h1
      obtain ⟨_, w1, _, h1⟩ := Exec.bind_ok h1
      obtain ⟨h1, _⟩ := Exec.pure_ok h1
      subst h1
      exact ⟨hv.1, entriesRemove_nodup _ _ hv.2.1, fun e he => hv.2.2 e (entriesRemove_mem he)⟩
  | .struct true cached fs, ht, m, op, v, rt, w, v', w', hv, ho, h => by
    change (do
      let fields ← fs.run m v.rt op v.fields
      pure { v with fields } : Exec _) w = _ at h
    obtain ⟨x, w1, h1, h2⟩ := Exec.bind_ok h
    rw [(Exec.pure_ok h2).1]
    rw [hv.1 rfl] at h1
    exact ⟨hv.1, at_runFields fs ht.2 m op v.fields rt w x w1 hv.2 ho h1⟩
  | .enum true cached fs vs, ht, m, op, v, rt, w, v', w', hv, ho, h => by
    rw [enum_run_eq] at h
    rw [opAddr_enum] at ho
    have hwf : Variants.WF (allVariants cached fs vs) true := ⟨by decide, ht.1, ht.2.1, ht.2.2.2.2⟩
    -- the fields of the (possibly new) variant
    have fin : ∀ (u : (Ty.enum true cached fs vs).El) (w1 : World), At (.enum true cached fs vs) rt u →
        OpAddrVariant (allVariants cached fs vs) op u.val →
        (do
          let val ← (allVariants cached fs vs).run m u.rt op u.val
          pure { u with val } : Exec (EnumV (fs.El ⊕ vs.El))) w1 = (.ok v', w') → At (.enum true cached fs vs) rt v' := by
      intro u w1 hu hou h
      obtain ⟨x, w2, h1, h2⟩ := Exec.bind_ok h
      rw [(Exec.pure_ok h2).1]
      rw [at_enum_iff] at hu ⊢
      rw [hu.1] at h1
      have := at_runCons (at_runFields fs ht.2.1) (at_runVariant vs ht.2.2.2.2) 0#32 cached m op u.val rt w1 x w2 hu.2 hou h1
      exact ⟨by rw [this.2]; exact hu.1, this.1⟩
    unfold runEnum at h
    obtain ⟨u, w1, h1, h2⟩ := Exec.bind_ok h
    split at h1
    · next hcond =>
      obtain ⟨parent, w2, hp, h1⟩ := Exec.bind_ok h1
      have hpar : parent = rt := by
        rw [((at_enum_iff cached fs vs rt v).1 hv).1, Rt.parent_nested'] at hp
        cases hp; rfl
      subst hpar
      cases hval : ((allVariants cached fs vs).dict true).ctor ((allVariants cached fs vs).opTag op)
        (some (parent.nested ((allVariants cached fs vs).opTag op))) with
      | some val =>
        rw [hval] at h1
        obtain ⟨_, w3, _, h1⟩ := Exec.bind_ok h1
        obtain ⟨rfl, _⟩ := Exec.pure_ok h1
        have hc := (variantsAny (allVariants cached fs vs) true hwf).ctor_some rfl _ parent val hval
        refine fin _ w1 ?_ (opAddr_switch _ _ _ hcond.2 hcond.1 ho _) h2
        rw [at_enum_iff]
        exact ⟨by rw [hc.2], hc.1⟩
      | none =>
        rw [hval] at h1
        obtain ⟨rfl, _⟩ := Exec.pure_ok h1
        exact fin _ w1 hv ho h2
    · obtain ⟨rfl, _⟩ := Exec.pure_ok h1
      exact fin _ w1 hv ho h2

theorem at_runFields : (fs : Fields) → fs.WF true → ∀ m op v rt w v' w', AtFields fs true rt v → OpAddrFields fs op v →
    fs.run m rt op v w = (.ok v', w') → AtFields fs true rt v'
  | .nil, _, _, op, _, _, _, _, _, _, _, _ => nomatch op
  | .cons tag attrs t fs, hf, m, .inl op, v, rt, w, v', w', hv, ho, h => by
    change (do
      let x ← runField (!attrs.noState) tag t.dict t.run m rt op v.1
      pure (x, v.2) : Exec _) w = _ at h
    obtain ⟨x, w1, h1, h2⟩ := Exec.bind_ok h
    rw [(Exec.pure_ok h2).1]
    refine ⟨?_, hv.2⟩
    have hv1 := hv.1
    simp only [Bool.true_and] at hv1 ⊢
    cases op with
    | inner op =>
      split at hv1
      · rw [if_pos (by assumption)]
        exact at_run t hf.2.2.1 m op v.1 _ w x w1 hv1 ho h1
      · rw [if_neg (by assumption)]
        obtain ⟨rt', hv1⟩ := hv1
        exact ⟨rt', at_run t hf.2.2.1 m op v.1 _ w x w1 hv1 ho h1⟩
    | set y =>
      obtain ⟨rt', hy⟩ := ho
      simp only [runField] at h1
      split at h1
      · next hs =>
        rw [if_pos hs]
        obtain ⟨_, w2, _, h1⟩ := Exec.bind_ok h1
        rw [(Exec.pure_ok h1).1]
        exact (anyLaw t hf.2.2.1).at_set _ _ _ hy
      · next hs =>
        rw [if_neg hs, (Exec.pure_ok h1).1]
        exact ⟨rt', hy⟩
    | setWith f =>
      simp only [runField] at h1
      split at h1
      · next hs =>
        rw [if_pos hs]
        obtain ⟨_, w2, _, h1⟩ := Exec.bind_ok h1
        obtain ⟨y, w3, hy, h1⟩ := Exec.bind_ok h1
        obtain ⟨_, w4, _, h1⟩ := Exec.bind_ok h1
        obtain ⟨_, w5, _, h1⟩ := Exec.bind_ok h1
        rw [(Exec.pure_ok h1).1]
        exact ho _ _ _ _ hy
      · rw [(Exec.pure_ok h1).1]; exact hv1
  | .cons tag attrs t fs, hf, m, .inr op, v, rt, w, v', w', hv, ho, h => by
    change (do
      let y ← fs.run m rt op v.2
      pure (v.1, y) : Exec _) w = _ at h
    obtain ⟨x, w1, h1, h2⟩ := Exec.bind_ok h
    rw [(Exec.pure_ok h2).1]
    exact ⟨hv.1, at_runFields fs hf.2.2.2 m op v.2 rt w x w1 hv.2 ho h1⟩

theorem at_runVariant : (vs : Variants) → vs.WF true → ∀ m op v rt w v' w', VarAt vs true rt v → OpAddrVariant vs op v →
    vs.run m (rt.nested ((vs.dict true).tagOf v)) op v w = (.ok v', w') →
    VarAt vs true rt v' ∧ (vs.dict true).tagOf v' = (vs.dict true).tagOf v
  | .nil, _, _, op, _, _, _, _, _, _, _, _ => nomatch op
  | .cons tag cached fs vs, hv, m, op, v, rt, w, v', w', ha, ho, h =>
    at_runCons (at_runFields fs hv.2.2.1) (at_runVariant vs hv.2.2.2) tag cached m op v rt w v' w' ha ho h
end

end Steit
