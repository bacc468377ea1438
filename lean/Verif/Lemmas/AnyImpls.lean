import Verif.Lemmas.AnyLaw
import Verif.Model.Ty

/-! # Reading arbitrary bytes: every implementation -/

namespace Steit
open Spec

theorem anyLaw_prim {α : Type} [DecidableEq α] {size : α → Nat} {put : α → Bytes}
    {get : Mode → Bytes → Except Err (α × Bytes)} {dflt : α} (h : ∀ m, ReadsVarint m (get m)) (st : Bool) :
    AnyLaw (primDict size put get dflt) st (fun _ _ => True) where
  dflt_eq := rfl
  at_new := fun _ => trivial
  merge := by
    intro m rt v bs _
    simp only [primDict]
    cases hg : get m bs with
    | ok xr => exact .inl ⟨_, _, rfl, trivial⟩
    | error e => exact .inr ⟨_, _, rfl, trivial, (h m).err hg⟩
  sized_all := fun h => by cases h
  varint := by
    intro _ m
    refine ⟨get m, h m, fun v bs => ?_⟩
    simp only [primDict]
    cases get m bs <;> rfl
  at_set := fun _ _ _ _ => trivial
  handle := by
    intro _ m rt v path kind key bs _
    simp only [primDict]
    split
    · split
      · cases hg : get m bs with
        | ok xr => exact .inl ⟨_, _, rfl, trivial⟩
        | error e => exact .inr ⟨_, _, rfl, trivial, (h m).err hg⟩
      · exact .inr ⟨_, _, rfl, trivial, .inr (.inl rfl)⟩
    · exact .inr ⟨_, _, rfl, trivial, .inr (.inl rfl)⟩

theorem anyLaw_string : AnyLaw stringDict false (fun _ _ => True) :=
  anyLaw_plain trivial
    (by
      intro m v bs _
      by_cases h : utf8Valid bs = true
      · exact .inl ⟨⟨bs, h⟩, [], by simp [h], trivial⟩
      · exact .inr ⟨v, .invalidData, by simp [h], trivial, .inr (.inl rfl)⟩)
    (by
      intro m v bs v' rest hm
      split at hm
      · cases hm; rfl
      · cases hm)

theorem anyLaw_bytes : AnyLaw bytesDict false (fun _ _ => True) :=
  anyLaw_plain trivial (fun m v bs _ => .inl ⟨_, _, rfl, trivial⟩) (by intro m v bs v' rest hm; cases hm; rfl)

section
variable {α : Type} {d : Dict α} {st : Bool} {At : Rt → α → Prop}

theorem anyLaw_vec (h : AnyLaw d st At) : AnyLaw (vecDict d) false (fun _ v => ∀ x ∈ v, ∃ rt, At rt x) := by
  refine anyLaw_plain (by simp) ?_ (fun m v bs v' rest hm => untilEof_ok_nil hm)
  intro m v bs hv
  refine loop_any (fun m => vecStep d m) (fun v => ∀ x ∈ v, ∃ rt, At rt x) ?_ m v bs hv
  intro m v bs hv
  unfold vecStep
  rcases h.deser m d.wire bs with ⟨x, rest, h1, h2, h3⟩ | ⟨e, h1, h2⟩
  · refine .inl ⟨v ++ [x], rest, by rw [h1], ?_, h3⟩
    intro y hy
    rcases List.mem_append.1 hy with hy | hy
    · exact hv y hy
    · rw [List.mem_singleton.1 hy]; exact ⟨_, h2⟩
  · exact .inr ⟨v, e, by rw [h1], hv, h2⟩

theorem arrayLoop_any (h : AnyLaw d st At) (m : Mode) (todo : List α) : ∀ (done : List α) (bs : Bytes),
    (∀ x ∈ done, ∃ rt, At rt x) → (∀ x ∈ todo, ∃ rt, At rt x) →
    (∃ v' rest, arrayLoop d m done todo bs = .ok v' rest ∧ ∀ x ∈ v'.1, ∃ rt, At rt x) ∨
    (∃ v' e, arrayLoop d m done todo bs = .err v' e ∧ (∀ x ∈ v'.1, ∃ rt, At rt x) ∧ ErrOk m bs e) := by
  induction todo with
  | nil => intro done bs hd _; exact .inl ⟨_, _, rfl, hd⟩
  | cons t todo ih =>
    intro done bs hd ht
    cases bs with
    | nil =>
      refine .inl ⟨_, _, rfl, ?_⟩
      intro x hx
      rcases List.mem_append.1 hx with hx | hx
      · exact hd x hx
      · exact ht x hx
    | cons b bs =>
      simp only [arrayLoop]
      rcases h.deser m d.wire (b :: bs) with ⟨x, rest, h1, h2, h3, h4⟩ | ⟨e, h1, h2⟩
      · simp only [h1]
        have hd' : ∀ y ∈ done ++ [x], ∃ rt, At rt y := by
          intro y hy
          rcases List.mem_append.1 hy with hy | hy
          · exact hd y hy
          · rw [List.mem_singleton.1 hy]; exact ⟨_, h2⟩
        rcases ih (done ++ [x]) rest hd' (fun y hy => ht y (by simp [hy])) with ⟨v', r, g1, g2⟩ | ⟨v', e, g1, g2, g3⟩
        · refine .inl ⟨_, r, by rw [g1]; rfl, g2⟩
        · exact .inr ⟨_, e, by rw [g1]; rfl, g2, g3.mono h3.isInfix⟩
      · simp only [h1]
        refine .inr ⟨_, e, rfl, ?_, h2⟩
        intro x hx
        rcases List.mem_append.1 hx with hx | hx
        · exact hd x hx
        · exact ht x hx

theorem anyLaw_array (n : Nat) (h : AnyLaw d st At) :
    AnyLaw (arrayDict n d) false (fun _ v => ∀ x ∈ v.1, ∃ rt, At rt x) := by
  refine anyLaw_plain ?_ ?_ ?_
  · intro x hx
    rw [List.eq_of_mem_replicate hx]; exact ⟨_, h.at_dflt⟩
  · intro m v bs hv
    rcases arrayLoop_any h m v.1 [] bs (by simp) hv with ⟨v', r, g1, g2⟩ | ⟨v', e, g1, g2, g3⟩
    · refine .inl ⟨_, [], by rw [g1]; rfl, g2⟩
    · exact .inr ⟨_, e, by rw [g1]; rfl, g2, g3⟩
  · intro m v bs v' rest hm
    split at hm <;> cases hm; rfl

theorem anyLaw_option (h : AnyLaw d st At) : AnyLaw (optionDict d) false (fun _ v => ∀ x ∈ v, ∃ rt, At rt x) := by
  refine anyLaw_plain (by simp) ?_ (fun m v bs v' rest hm => untilEof_ok_nil hm)
  intro m v bs hv
  refine loop_any (fun m => optionStep d m) (fun v => ∀ x ∈ v, ∃ rt, At rt x) ?_ m v bs hv
  intro m v bs hv
  unfold optionStep
  obtain ⟨rt, hrt⟩ : ∃ rt, At rt (v.getD d.dflt) := by
    cases v with
    | none => exact ⟨_, h.at_dflt⟩
    | some x => exact hv x rfl
  rcases h.nested m rt (v.getD d.dflt) d.wire bs hrt with ⟨x, rest, h1, h2, h3⟩ | ⟨x, e, h1, h2, h3⟩
  · exact .inl ⟨some x, rest, by rw [h1]; rfl, by rintro y ⟨⟩; exact ⟨_, h2⟩, h3⟩
  · exact .inr ⟨some x, e, by rw [h1]; rfl, by rintro y ⟨⟩; exact ⟨_, h2⟩, h3⟩

theorem anyLaw_box (h : AnyLaw d st At) : AnyLaw (boxDict d) st At :=
  ⟨h.dflt_eq, h.at_new, h.merge, h.sized_all, h.varint, h.at_set, h.handle⟩

theorem AnyLaw.congr {st' : Bool} {At' : Rt → α → Prop} (h : AnyLaw d st At) (hst : st = st') (hat : At = At') :
    AnyLaw d st' At' := by subst hst hat; exact h

end

/-! ### Tuples -/

/-- The law of a tuple's components. -/
structure TupleAny {α : Type} (t : TupleD α) (P : α → Prop) : Prop where
  dflt : P t.dflt
  read : ∀ m bs, (∃ v rest, t.read m bs = .ok (v, rest) ∧ P v) ∨ (∃ e, t.read m bs = .error e ∧ ErrOk m bs e)

theorem tupleAny_nil : TupleAny tupleNil (fun _ => True) :=
  ⟨trivial, fun _ bs => .inl ⟨(), bs, rfl, trivial⟩⟩

theorem tupleAny_cons {α β : Type} {d : Dict α} {st : Bool} {At : Rt → α → Prop} {t : TupleD β} {P : β → Prop}
    (h : AnyLaw d st At) (ht : TupleAny t P) : TupleAny (tupleCons d t) (fun v => (∃ rt, At rt v.1) ∧ P v.2) where
  dflt := ⟨⟨_, h.at_dflt⟩, ht.dflt⟩
  read := by
    intro m bs
    simp only [tupleCons]
    rcases h.deser m d.wire bs with ⟨x, rest, h1, h2, h3, _⟩ | ⟨e, h1, h2⟩
    · simp only [h1]
      rcases ht.read m rest with ⟨y, r, g1, g2⟩ | ⟨e, g1, g2⟩
      · exact .inl ⟨(x, y), r, by simp only [g1], ⟨_, h2⟩, g2⟩
      · exact .inr ⟨e, by simp only [g1], g2.mono h3.isInfix⟩
    · exact .inr ⟨e, by simp only [h1], h2⟩

theorem anyLaw_tuple {α : Type} {t : TupleD α} {P : α → Prop} (h : TupleAny t P) :
    AnyLaw (tupleDict t) false (fun _ v => P v) := by
  refine anyLaw_plain h.dflt ?_ ?_
  · intro m v bs hv
    rcases h.read m bs with ⟨x, r, g1, g2⟩ | ⟨e, g1, g2⟩
    · exact .inl ⟨x, [], by simp only [g1], g2⟩
    · exact .inr ⟨v, e, by simp only [g1], hv, g2⟩
  · intro m v bs v' rest hm
    split at hm <;> cases hm; rfl

/-! ### Hash maps -/

theorem hashInsert_mem {κ ν : Type} {eq : κ → κ → Bool} {k : κ} {v : ν} {es : List (κ × ν)} {e : κ × ν}
    (h : e ∈ hashInsert eq k v es) : e ∈ es ∨ e = (k, v) ∨ ∃ e' ∈ es, e = (e'.1, v) := by
  induction es with
  | nil => simp [hashInsert] at h; exact .inr (.inl h)
  | cons x es ih =>
    obtain ⟨k', v'⟩ := x
    simp only [hashInsert] at h
    split at h
    · rcases List.mem_cons.1 h with rfl | h
      · exact .inr (.inr ⟨(k', v'), by simp, rfl⟩)
      · exact .inl (by simp [h])
    · rcases List.mem_cons.1 h with rfl | h
      · exact .inl (by simp)
      · rcases ih h with h | h | ⟨e', h1, h2⟩
        · exact .inl (by simp [h])
        · exact .inr (.inl h)
        · exact .inr (.inr ⟨e', by simp [h1], h2⟩)

theorem anyLaw_hashMap {κ ν : Type} {dk : Dict κ} {dv : Dict ν} {stk stv : Bool} {Ak : Rt → κ → Prop}
    {Av : Rt → ν → Prop} (eq : κ → κ → Bool) (hk : AnyLaw dk stk Ak) (hv : AnyLaw dv stv Av) :
    AnyLaw (hashMapDict eq dk dv) false (fun _ v => ∀ e ∈ v, (∃ rt, Ak rt e.1) ∧ ∃ rt, Av rt e.2) := by
  refine anyLaw_plain (by simp) ?_ (fun m v bs v' rest hm => untilEof_ok_nil hm)
  intro m v bs hP
  refine loop_any (fun m => hashMapStep eq dk dv m) (fun v => ∀ e ∈ v, (∃ rt, Ak rt e.1) ∧ ∃ rt, Av rt e.2) ?_ m v bs hP
  intro m v bs hP
  unfold hashMapStep
  rcases hk.deser m dk.wire bs with ⟨k, r1, h1, h2, h3, h4⟩ | ⟨e, h1, h2⟩
  · rcases hv.deser m dv.wire r1 with ⟨x, r2, g1, g2, g3, g4⟩ | ⟨e, g1, g2⟩
    · refine .inl ⟨hashInsert eq k x v, r2, by simp only [h1, g1], ?_, g3.trans h3, by omega⟩
      intro e he
      rcases hashInsert_mem he with he | rfl | ⟨e', he', rfl⟩
      · exact hP e he
      · exact ⟨⟨_, h2⟩, _, g2⟩
      · exact ⟨(hP e' he').1, _, g2⟩
    · exact .inr ⟨v, e, by simp only [h1, g1], hP, g2.mono h3.isInfix⟩
  · exact .inr ⟨v, e, by simp only [h1], hP, h2⟩

/-! ### Lists -/

section
variable {α : Type} {d : Dict α} {st : Bool} {At : Rt → α → Prop}

theorem listAt_snoc {rt : Rt} {items : List α} {x : α} (h : ∀ i y, items[i]? = some y → At (rt.nested (fieldNo i)) y)
    (hx : At (rt.nested (fieldNo items.length)) x) :
    ∀ i y, (items ++ [x])[i]? = some y → At (rt.nested (fieldNo i)) y := by
  intro i y hy
  rw [List.getElem?_append] at hy
  split at hy
  · exact h i y hy
  · next hi =>
    have : i - items.length = 0 := by
      by_cases h0 : i - items.length = 0
      · exact h0
      · rw [List.getElem?_singleton, if_neg h0] at hy; cases hy
    have hi' : i = items.length := by omega
    subst hi'
    simp at hy
    subst hy
    exact hx

theorem listStep_any (h : AnyLaw d st At) (rt : Rt) (m : Mode) (v : ListV α) (bs : Bytes)
    (hv : v.rt = rt ∧ ∀ i x, v.items[i]? = some x → At (rt.nested (fieldNo i)) x) :
    (∃ v' rest, listStep d m v bs = .ok v' rest ∧
      (v'.rt = rt ∧ ∀ i x, v'.items[i]? = some x → At (rt.nested (fieldNo i)) x) ∧ rest <:+ bs ∧ rest.length < bs.length) ∨
    (∃ v' e, listStep d m v bs = .err v' e ∧
      (v'.rt = rt ∧ ∀ i x, v'.items[i]? = some x → At (rt.nested (fieldNo i)) x) ∧ ErrOk m bs e) := by
  unfold listStep
  rcases h.nested m (v.rt.nested (fieldNo v.items.length)) _ d.wire bs (h.at_new _) with
    ⟨x, rest, h1, h2, h3⟩ | ⟨x, e, h1, h2, h3⟩
  · simp only [h1]
    refine .inl ⟨_, _, rfl, ⟨hv.1, ?_⟩, h3⟩
    rw [hv.1] at h2
    exact listAt_snoc hv.2 h2
  · simp only [h1]
    exact .inr ⟨_, _, rfl, hv, h3⟩

theorem listMerge_any (h : AnyLaw d st At) (rt : Rt) (m : Mode) (v : ListV α) (bs : Bytes)
    (hv : v.rt = rt ∧ ∀ i x, v.items[i]? = some x → At (rt.nested (fieldNo i)) x) :
    (∃ v' rest, listMerge d m v bs = .ok v' rest ∧
      (v'.rt = rt ∧ ∀ i x, v'.items[i]? = some x → At (rt.nested (fieldNo i)) x)) ∨
    (∃ v' e, listMerge d m v bs = .err v' e ∧
      (v'.rt = rt ∧ ∀ i x, v'.items[i]? = some x → At (rt.nested (fieldNo i)) x) ∧ ErrOk m bs e) :=
  loop_any (fun m => listStep d m) (fun v => v.rt = rt ∧ ∀ i x, v.items[i]? = some x → At (rt.nested (fieldNo i)) x)
    (listStep_any h rt) m v bs hv

theorem setRuntimeItems_get (rt : Rt) : ∀ (items : List α) (k i : Nat) (y : α),
    (setRuntimeItems d rt k items)[i]? = some y →
      ∃ x, items[i]? = some x ∧ y = d.setRuntime (rt.nested (fieldNo (k + i))) x := by
  intro items
  induction items with
  | nil => intro k i y h; simp [setRuntimeItems] at h
  | cons x items ih =>
    intro k i y h
    cases i with
    | zero => simp [setRuntimeItems] at h; exact ⟨x, rfl, by rw [← h]; rfl⟩
    | succ i =>
      simp only [setRuntimeItems, List.getElem?_cons_succ] at h
      obtain ⟨z, h1, h2⟩ := ih (k + 1) i y h
      exact ⟨z, by simpa using h1, by rw [h2]; congr 3; omega⟩

theorem anyLaw_list (h : AnyLaw d st At) (hst : st = true) : AnyLaw (listDict d) true
    (fun rt v => v.rt = rt ∧ ∀ i x, v.items[i]? = some x → At (rt.nested (fieldNo i)) x) where
  dflt_eq := rfl
  at_new := fun rt => ⟨rfl, fun i x hx => by simp [listDict] at hx⟩
  merge := fun m rt v bs hv => listMerge_any h rt m v bs hv
  sized_all := fun _ m v bs v' rest hm => untilEof_ok_nil hm
  varint := fun h => by cases h
  at_set := by
    intro rt rt' v hv
    refine ⟨rfl, fun i y hy => ?_⟩
    obtain ⟨x, h1, h2⟩ := setRuntimeItems_get rt' v.items 0 i y hy
    rw [h2, Nat.zero_add]
    exact h.at_set _ _ _ (hv.2 i x h1)
  handle := by
    intro _ m rt v path kind key bs hv
    simp only [listDict]
    cases path with
    | nil =>
      cases kind with
      | update => exact listMerge_any h rt m ⟨v.rt, []⟩ bs ⟨hv.1, fun i x hx => by simp at hx⟩
      | listPush =>
        simp only [listHandle]
        rcases h.merge m (v.rt.nested (fieldNo v.items.length)) _ bs (h.at_new _) with
          ⟨x, rest, h1, h2⟩ | ⟨x, e, h1, h2, h3⟩
        · simp only [h1]
          refine .inl ⟨_, _, rfl, hv.1, ?_⟩
          rw [hv.1] at h2
          exact listAt_snoc hv.2 h2
        · simp only [h1]
          exact .inr ⟨_, _, rfl, hv, h3⟩
      | listPop =>
        simp only [listHandle]
        split
        · exact .inr ⟨_, _, rfl, hv, .inr (.inl rfl)⟩
        · refine .inl ⟨_, _, rfl, hv.1, fun i x hx => hv.2 i x ?_⟩
          rw [List.getElem?_dropLast] at hx
          split at hx
          · exact hx
          · cases hx
      | mapRemove => exact .inr ⟨_, _, rfl, hv, .inr (.inl rfl)⟩
    | cons n path =>
      simp only [listHandle]
      cases hx : v.items[n.toNat]? with
      | none => exact .inr ⟨_, _, rfl, hv, .inr (.inl rfl)⟩
      | some x =>
        have hset : ∀ y, At (rt.nested (fieldNo n.toNat)) y →
            ∀ i z, (v.items.set n.toNat y)[i]? = some z → At (rt.nested (fieldNo i)) z := by
          intro y hy i z hz
          rw [List.getElem?_set] at hz
          split at hz
          · next hi =>
            subst hi
            split at hz
            · cases hz; exact hy
            · cases hz
          · exact hv.2 i z hz
        rcases h.handle hst m _ x path kind key bs (hv.2 _ x hx) with ⟨y, rest, h1, h2⟩ | ⟨y, e, h1, h2, h3⟩
        · exact .inl ⟨⟨v.rt, v.items.set n.toNat y⟩, _, by simp only [h1]; rfl, hv.1, hset y h2⟩
        · exact .inr ⟨⟨v.rt, v.items.set n.toNat y⟩, _, by simp only [h1]; rfl, ⟨hv.1, hset y h2⟩, h3⟩

/-! ### Maps -/

theorem entriesGet_mem {k : U32} {es : List (U32 × α)} {x : α} (h : entriesGet k es = some x) : (k, x) ∈ es := by
  induction es with
  | nil => cases h
  | cons e es ih =>
    obtain ⟨k', v'⟩ := e
    simp only [entriesGet] at h
    split at h
    · next hk => cases h; subst hk; simp
    · exact List.mem_cons_of_mem _ (ih h)

theorem entriesInsert_mem {k : U32} {v : α} {es : List (U32 × α)} {e : U32 × α} (h : e ∈ entriesInsert k v es) :
    e ∈ es ∨ e = (k, v) := by
  induction es with
  | nil => simp [entriesInsert] at h; exact .inr h
  | cons x es ih =>
    obtain ⟨k', v'⟩ := x
    simp only [entriesInsert] at h
    split at h
    · next hk =>
      rcases List.mem_cons.1 h with rfl | h
      · right; rw [hk]
      · exact .inl (by simp [h])
    · rcases List.mem_cons.1 h with rfl | h
      · exact .inl (by simp)
      · rcases ih h with h | h
        · exact .inl (by simp [h])
        · exact .inr h

theorem entriesRemove_mem {k : U32} {es : List (U32 × α)} {e : U32 × α} (h : e ∈ entriesRemove k es) : e ∈ es := by
  unfold entriesRemove at h
  split at h
  · exact h
  · split at h
    · exact List.dropLast_subset _ h
    · split at h
      · exact h
      · next last hl =>
        have h := List.dropLast_subset _ h
        rcases List.mem_or_eq_of_mem_set h with h | h
        · exact h
        · rw [h]; exact List.mem_of_getLast? hl

theorem readMapKey_ok' {m : Mode} {kt : KeyTy} {bs rest : Bytes} {k : U32} (h : readMapKey m kt bs = .ok (k, rest)) :
    ∃ c, bs = c ++ rest ∧ IsVarint c := by
  unfold readMapKey at h
  simp only [bind, Except.bind] at h
  split at h
  · cases h
  · next y hy =>
    split at h
    · cases h
    · split at h
      · cases h
      · split at h
        · cases h
        · cases h
          exact (readsVarint_uint m (by decide)).ok hy

theorem readMapKey_err {m : Mode} {kt : KeyTy} {bs : Bytes} {e : Err} (h : readMapKey m kt bs = .error e) :
    ErrOk m bs e := by
  unfold readMapKey at h
  simp only [bind, Except.bind] at h
  split at h
  · next he => cases h; exact (readsVarint_uint m (by decide)).err he
  · split at h
    · next he => cases h; exact .inr (.inl (parseTag_err_kind he))
    · split at h
      · next he =>
        cases h
        unfold validateFieldNumber at he
        split at he
        · cases he; exact .inr (.inl rfl)
        · cases he
      · split at h
        · next he =>
          cases h
          unfold KeyTy.tryFromFieldNumber at he
          split at he
          · cases he
          · cases he; exact .inr (.inl rfl)
        · cases h

theorem entriesInsert_keys (k : U32) (v : α) (es : List (U32 × α)) :
    (entriesInsert k v es).map (·.1) = if k ∈ es.map (·.1) then es.map (·.1) else es.map (·.1) ++ [k] := by
  induction es with
  | nil => simp [entriesInsert]
  | cons e es ih =>
    obtain ⟨k', v'⟩ := e
    simp only [entriesInsert]
    by_cases h : k' = k
    · subst h; simp
    · have h' : ¬ k = k' := fun e => h e.symm
      simp only [if_neg h, List.map_cons, ih, List.mem_cons, h', false_or]
      split <;> rfl

theorem entriesInsert_nodup (k : U32) (v : α) (es : List (U32 × α)) (h : (es.map (·.1)).Nodup) :
    ((entriesInsert k v es).map (·.1)).Nodup := by
  rw [entriesInsert_keys]
  split
  · exact h
  · next hk =>
    rw [List.nodup_append]
    refine ⟨h, by simp, ?_⟩
    intro a ha b hb
    rw [List.mem_singleton.1 hb]
    rintro rfl
    exact hk ha

theorem set_last_dropLast_perm {β : Type} (xs : List β) (i : Nat) (hi : i + 1 < xs.length) (last : β)
    (hl : xs.getLast? = some last) : List.Perm (xs.eraseIdx i) ((xs.set i last).dropLast) := by
  obtain ⟨ys, rfl⟩ : ∃ ys, xs = ys ++ [last] := by
    rcases List.eq_nil_or_concat xs with rfl | ⟨ys, y, rfl⟩
    · simp at hl
    · simp at hl; subst hl; exact ⟨ys, by simp⟩
  simp only [List.length_append, List.length_singleton] at hi
  rw [List.set_append_left _ _ (by omega), List.dropLast_concat, List.eraseIdx_append_of_lt_length (by omega)]
  induction ys generalizing i with
  | nil => simp at hi
  | cons y ys ih =>
    cases i with
    | zero => simp only [List.eraseIdx_cons_zero, List.set_cons_zero]; exact List.perm_append_singleton last ys
    | succ i =>
      simp only [List.eraseIdx_cons_succ, List.set_cons_succ, List.cons_append]
      exact (ih i (by simp) (by simp at hi; omega)).cons y

theorem entriesRemove_nodup (k : U32) (es : List (U32 × α)) (h : (es.map (·.1)).Nodup) :
    ((entriesRemove k es).map (·.1)).Nodup := by
  unfold entriesRemove
  cases hf : es.findIdx? (fun e => e.1 = k) with
  | none => exact h
  | some i =>
    simp only
    have hi : i < es.length := (List.findIdx?_eq_some_iff_getElem.1 hf).1
    by_cases hl : i + 1 = es.length
    · rw [if_pos hl]
      exact h.sublist ((List.dropLast_sublist _).map _)
    · rw [if_neg hl]
      cases hg : es.getLast? with
      | none => exact h
      | some last =>
        have hp := (set_last_dropLast_perm es i (by omega) last hg).map (·.1)
        exact (hp.nodup_iff).1 (h.sublist ((List.eraseIdx_sublist _ _).map _))

theorem mapStep_any (kt : KeyTy) (h : AnyLaw d st At) (rt : Rt) (m : Mode) (v : MapV α) (bs : Bytes)
    (hv : v.rt = rt ∧ (v.entries.map (·.1)).Nodup ∧ ∀ e ∈ v.entries, At (rt.nested e.1) e.2) :
    (∃ v' rest, mapStep kt d m v bs = .ok v' rest ∧
      (v'.rt = rt ∧ (v'.entries.map (·.1)).Nodup ∧ ∀ e ∈ v'.entries, At (rt.nested e.1) e.2) ∧ rest <:+ bs ∧ rest.length < bs.length) ∨
    (∃ v' e, mapStep kt d m v bs = .err v' e ∧
      (v'.rt = rt ∧ (v'.entries.map (·.1)).Nodup ∧ ∀ e ∈ v'.entries, At (rt.nested e.1) e.2) ∧ ErrOk m bs e) := by
  have hins : ∀ k x, At (rt.nested k) x → ((entriesInsert k x v.entries).map (·.1)).Nodup ∧
      ∀ e ∈ entriesInsert k x v.entries, At (rt.nested e.1) e.2 := by
    intro k x hx
    refine ⟨entriesInsert_nodup k x _ hv.2.1, fun e he => ?_⟩
    rcases entriesInsert_mem he with he | rfl
    · exact hv.2.2 e he
    · exact hx
  unfold mapStep
  cases hk : readMapKey m kt bs with
  | error e => exact .inr ⟨_, _, rfl, hv, readMapKey_err hk⟩
  | ok kr =>
    obtain ⟨k, r⟩ := kr
    obtain ⟨c, rfl, hc⟩ := readMapKey_ok' hk
    have hpos := hc.length_pos
    simp only
    cases hg : entriesGet k v.entries with
    | some x =>
      simp only
      rcases h.nested m _ x d.wire r (hv.2.2 _ (entriesGet_mem hg)) with ⟨y, rest, h1, h2, h3, h4⟩ | ⟨y, e, h1, h2, h3⟩
      · refine .inl ⟨⟨v.rt, entriesInsert k y v.entries⟩, _, by rw [h1]; rfl, ⟨hv.1, hins k y h2⟩, h3.trans (List.suffix_append _ _), ?_⟩
        simp only [List.length_append]; omega
      · exact .inr ⟨⟨v.rt, entriesInsert k y v.entries⟩, _, by rw [h1]; rfl, ⟨hv.1, hins k y h2⟩, h3.mono (List.suffix_append _ _).isInfix⟩
    | none =>
      simp only
      rcases h.nested m _ _ d.wire r (h.at_new (v.rt.nested k)) with ⟨y, rest, h1, h2, h3, h4⟩ | ⟨y, e, h1, h2, h3⟩
      · simp only [h1]
        rw [hv.1] at h2
        refine .inl ⟨_, _, rfl, ⟨hv.1, hins k y h2⟩, h3.trans (List.suffix_append _ _), ?_⟩
        simp only [List.length_append]; omega
      · simp only [h1]
        exact .inr ⟨_, _, rfl, hv, h3.mono (List.suffix_append _ _).isInfix⟩

theorem mapMerge_any (kt : KeyTy) (h : AnyLaw d st At) (rt : Rt) (m : Mode) (v : MapV α) (bs : Bytes)
    (hv : v.rt = rt ∧ (v.entries.map (·.1)).Nodup ∧ ∀ e ∈ v.entries, At (rt.nested e.1) e.2) :
    (∃ v' rest, mapMerge kt d m v bs = .ok v' rest ∧ (v'.rt = rt ∧ (v'.entries.map (·.1)).Nodup ∧ ∀ e ∈ v'.entries, At (rt.nested e.1) e.2)) ∨
    (∃ v' e, mapMerge kt d m v bs = .err v' e ∧ (v'.rt = rt ∧ (v'.entries.map (·.1)).Nodup ∧ ∀ e ∈ v'.entries, At (rt.nested e.1) e.2) ∧
      ErrOk m bs e) :=
  loop_any (fun m => mapStep kt d m) (fun v : MapV α => v.rt = rt ∧ (v.entries.map (fun e : U32 × α => e.1)).Nodup ∧ ∀ e ∈ v.entries, At (rt.nested e.1) e.2)
    (mapStep_any kt h rt) m v bs hv

theorem anyLaw_map (kt : KeyTy) (h : AnyLaw d st At) (hst : st = true) : AnyLaw (mapDict kt d) true
    (fun rt v => v.rt = rt ∧ (v.entries.map (·.1)).Nodup ∧ ∀ e ∈ v.entries, At (rt.nested e.1) e.2) where
  dflt_eq := rfl
  at_new := fun rt => ⟨rfl, by simp [mapDict], fun e he => by simp [mapDict] at he⟩
  merge := fun m rt v bs hv => mapMerge_any kt h rt m v bs hv
  sized_all := fun _ m v bs v' rest hm => untilEof_ok_nil hm
  varint := fun h => by cases h
  at_set := by
    intro rt rt' v hv
    refine ⟨rfl, by simpa [mapDict, Function.comp_def] using hv.2.1, fun e he => ?_⟩
    obtain ⟨e', h1, rfl⟩ := List.mem_map.1 he
    exact h.at_set _ _ _ (hv.2.2 e' h1)
  handle := by
    intro _ m rt v path kind key bs hv
    have hins : ∀ k x, At (rt.nested k) x → ((entriesInsert k x v.entries).map (·.1)).Nodup ∧
        ∀ e ∈ entriesInsert k x v.entries, At (rt.nested e.1) e.2 := by
      intro k x hx
      refine ⟨entriesInsert_nodup k x _ hv.2.1, fun e he => ?_⟩
      rcases entriesInsert_mem he with he | rfl
      · exact hv.2.2 e he
      · exact hx
    simp only [mapDict]
    cases path with
    | nil =>
      cases kind with
      | update => exact mapMerge_any kt h rt m ⟨v.rt, []⟩ bs ⟨hv.1, by simp, fun e he => by simp at he⟩
      | listPush => exact .inr ⟨_, _, rfl, hv, .inr (.inl rfl)⟩
      | listPop => exact .inr ⟨_, _, rfl, hv, .inr (.inl rfl)⟩
      | mapRemove =>
        simp only [mapHandle]
        cases key with
        | none => exact .inr ⟨_, _, rfl, hv, .inr (.inl rfl)⟩
        | some k =>
          simp only
          cases entriesGet k v.entries with
          | none => exact .inr ⟨_, _, rfl, hv, .inr (.inl rfl)⟩
          | some x => exact .inl ⟨_, _, rfl, hv.1, entriesRemove_nodup k _ hv.2.1, fun e he => hv.2.2 e (entriesRemove_mem he)⟩
    | cons n path =>
      simp only [mapHandle]
      cases hg : entriesGet n v.entries with
      | some x =>
        simp only
        rcases h.handle hst m _ x path kind key bs (hv.2.2 _ (entriesGet_mem hg)) with
          ⟨y, rest, h1, h2⟩ | ⟨y, e, h1, h2, h3⟩
        · exact .inl ⟨⟨v.rt, entriesInsert n y v.entries⟩, _, by rw [h1]; rfl, hv.1, hins n y h2⟩
        · exact .inr ⟨⟨v.rt, entriesInsert n y v.entries⟩, _, by rw [h1]; rfl, ⟨hv.1, hins n y h2⟩, h3⟩
      | none =>
        simp only
        split
        · rcases h.merge m _ _ bs (h.at_new (v.rt.nested n)) with ⟨y, rest, h1, h2⟩ | ⟨y, e, h1, h2, h3⟩
          · simp only [h1]
            rw [hv.1] at h2
            exact .inl ⟨_, _, rfl, hv.1, hins n y h2⟩
          · simp only [h1]
            exact .inr ⟨_, _, rfl, hv, h3⟩
        · exact .inr ⟨_, _, rfl, hv, .inr (.inl rfl)⟩

end

end Steit
