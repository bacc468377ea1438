import Verif.Lemmas.DeriveCode
import Verif.Spec.DeriveCode
import Std.Data.String.ToNat

/-!
# Names in derived code
-/

namespace Steit.Derive

open Spec

variable {it : Item}

/-! ## Lists -/

theorem lookup_of_mem {α β : Type} [BEq α] [LawfulBEq α] {k : α} {v : β} : ∀ {l : List (α × β)}, (l.map Prod.fst).Nodup → (k, v) ∈ l →
    l.lookup k = some v
  | [], _, h => by simp at h
  | (k', v') :: l, hn, h => by
    rw [List.map_cons, List.nodup_cons] at hn
    by_cases hk : k = k'
    · rcases List.mem_cons.1 h with e | h
      · rw [List.lookup_cons]; simp at e; simp [e.1, e.2]
      · exact absurd (List.mem_map.2 ⟨_, h, hk⟩) hn.1
    · rw [List.lookup_cons, show (k == k') = false from by simpa using hk]
      exact lookup_of_mem hn.2 ((List.mem_cons.1 h).resolve_left fun e => hk (by cases e; rfl))

theorem lookup_none {α β : Type} [BEq α] [LawfulBEq α] {k : α} {l : List (α × β)} (h : k ∉ l.map Prod.fst) : l.lookup k = none := by
  induction l with
  | nil => rfl
  | cons a l ih =>
    obtain ⟨k', v⟩ := a
    simp only [List.map_cons, List.mem_cons, not_or] at h
    rw [List.lookup_cons, show (k == k') = false from by simpa using h.1]
    exact ih h.2

theorem lookup_append {α β : Type} [BEq α] (k : α) (l l' : List (α × β)) : (l ++ l').lookup k = ((l.lookup k) <|> (l'.lookup k)) := by
  induction l with
  | nil => simp
  | cons a l ih =>
    obtain ⟨k', v⟩ := a
    simp only [List.cons_append, List.lookup_cons]
    cases k == k'
    · exact ih
    · rfl

theorem mapM_some {α β : Type} {f : α → Option β} {g : α → β} : ∀ {l : List α}, (∀ a ∈ l, f a = some (g a)) → l.mapM f = some (l.map g)
  | [], _ => rfl
  | a :: l, h => by
    rw [List.mapM_cons, h a (.head _), mapM_some fun a ha => h a (.tail _ ha)]; rfl

theorem mapM_none {α β : Type} {f : α → Option β} : ∀ {l : List α} {a : α}, a ∈ l → f a = none → l.mapM f = none
  | b :: l, a, h, hn => by
    rw [List.mapM_cons]
    rcases List.mem_cons.1 h with e | h
    · rw [← e, hn]; rfl
    · rw [mapM_none h hn]
      cases f b <;> rfl

theorem nodup_map {α β : Type} {f : α → β} (hf : ∀ a b, f a = f b → a = b) {l : List α} (h : l.Nodup) : (l.map f).Nodup :=
  List.Pairwise.map f (fun a b hab e => hab (hf a b e)) h

theorem need_true {p : Prop} [Decidable p] (h : p) : need p = some () := if_pos h

theorem need_false {p : Prop} [Decidable p] (h : ¬p) : need p = none := if_neg h

theorem bind_none {α β : Type} (o : Option α) : (o.bind fun _ => (none : Option β)) = none := by cases o <;> rfl

/-! ## Fields and positions -/

theorem mem_dfieldsFrom {d : DField} : ∀ {l : List (Ident × PField)} {k : Nat}, d ∈ it.dfieldsFrom k l →
    ∃ j x p, l[j]? = some (x, p) ∧ d = ⟨it.member x (k + j), p⟩
  | [], _, h => by simp [Item.dfieldsFrom] at h
  | (x, p) :: l, k, h => by
    rcases List.mem_cons.1 h with e | h
    · exact ⟨0, x, p, rfl, e⟩
    · obtain ⟨j, x, p, hj, e⟩ := mem_dfieldsFrom h
      exact ⟨j + 1, x, p, hj, by rw [e, show k + 1 + j = k + (j + 1) from by omega]⟩

theorem mem_dfields {d : DField} (h : d ∈ it.dfields) : ∃ j x p, it.fields[j]? = some (x, p) ∧ d = ⟨it.member x j, p⟩ := by
  obtain ⟨j, x, p, hj, e⟩ := mem_dfieldsFrom h
  exact ⟨j, x, p, hj, by rw [e, Nat.zero_add]⟩

theorem dfieldsFrom_mem : ∀ {l : List (Ident × PField)} {k j : Nat} {x : Ident} {p : PField}, l[j]? = some (x, p) →
    ⟨it.member x (k + j), p⟩ ∈ it.dfieldsFrom k l
  | [], _, _, _, _, h => by simp at h
  | (x', p') :: l, k, 0, x, p, h => by simp at h; rw [h.1, h.2]; exact .head _
  | (x', p') :: l, k, j + 1, x, p, h => by
    have := dfieldsFrom_mem (l := l) (k := k + 1) (j := j) (x := x) (p := p) (by simpa using h)
    rw [show k + 1 + j = k + (j + 1) from by omega] at this
    exact .tail _ this

theorem dfields_mem {j : Nat} {x : Ident} {p : PField} (h : it.fields[j]? = some (x, p)) : ⟨it.member x j, p⟩ ∈ it.dfields := by
  have := dfieldsFrom_mem (it := it) (k := 0) h
  rwa [Nat.zero_add] at this

theorem dfields_of_mem {x : Ident} {p : PField} (h : (x, p) ∈ it.fields) : ∃ d ∈ it.dfields, d.m.name = (if it.tuple then none else some x) ∧ d.p = p := by
  obtain ⟨j, hj⟩ := List.mem_iff_getElem?.1 h
  exact ⟨_, dfields_mem hj, rfl, rfl⟩

theorem index_from : ∀ (l : List (Ident × PField)) (k : Nat), (it.dfieldsFrom k l).map (fun d => d.m.index) = List.range' k l.length
  | [], _ => rfl
  | (x, p) :: l, k => by
    show k :: (it.dfieldsFrom (k + 1) l).map (fun d => d.m.index) = _
    rw [index_from l (k + 1), List.length_cons, List.range'_succ]

theorem index_nodup : (it.dfields.map fun d => d.m.index).Nodup := by
  rw [Item.dfields, index_from]; exact List.nodup_range'

theorem slots_eq : it.members.map Prod.snd = (it.dfields.map fun d => Slot.data d.m.index) ++ (it.cacheMember.map fun _ => Slot.cache).toList ++
    (it.runtimeMember.map fun _ => Slot.rt).toList := by
  simp only [Item.members, List.map_append, List.map_map]
  congr 1
  · congr 1
    cases it.cacheMember <;> rfl
  · cases it.runtimeMember <;> rfl

theorem data_nodup : (it.dfields.map fun d => Slot.data d.m.index).Nodup := by
  have := index_nodup (it := it)
  rw [show (it.dfields.map fun d => Slot.data d.m.index) = (it.dfields.map fun d => d.m.index).map Slot.data from by rw [List.map_map]; rfl]
  exact nodup_map (fun a b e => by cases e; rfl) this

/-! ## Members by their names -/

/-- Members have different names. -/
abbrev KeysNodup (it : Item) : Prop := (it.members.map Prod.fst).Nodup

theorem slotOf_field (h : KeysNodup it) {d : DField} (hd : d ∈ it.dfields) : slotOf it d.m.access = some (.data d.m.index) := by
  refine lookup_of_mem h ?_
  exact List.mem_append_left _ (List.mem_append_left _ (List.mem_map.2 ⟨d, hd, rfl⟩))

theorem slotOf_cache (h : KeysNodup it) {f : Member} (hf : it.cacheMember = some f) : slotOf it f.access = some .cache := by
  refine lookup_of_mem h ?_
  exact List.mem_append_left _ (List.mem_append_right _ (by simp [hf]))

theorem slotOf_rt (h : KeysNodup it) {f : Member} (hf : it.runtimeMember = some f) : slotOf it f.access = some .rt := by
  refine lookup_of_mem h ?_
  exact List.mem_append_right _ (by simp [hf])

theorem slotOf_key {a b : Access} (h : a.key = b.key) : slotOf it a = slotOf it b := by rw [slotOf, slotOf, h]

/-! ## Strings -/

theorem str_append_left {a b c : String} (h : a ++ b = a ++ c) : b = c := by
  have := congrArg String.toList h
  rw [String.toList_append, String.toList_append] at this
  exact String.toList_inj.1 (List.append_cancel_left this)

theorem str_append_right {a b c : String} (h : b ++ a = c ++ a) : b = c := by
  have := congrArg String.toList h
  rw [String.toList_append, String.toList_append] at this
  exact String.toList_inj.1 (List.append_cancel_right this)

theorem digits_toString (n : Nat) {c : Char} (h : c ∈ (toString n).toList) : c.isDigit = true := by
  rw [Nat.toString_eq_ofList_toDigits, String.toList_ofList] at h
  exact Nat.isDigit_of_mem_toDigits (by decide) (by decide) h

theorem toString_inj {m n : Nat} (h : toString m = toString n) : m = n := Nat.repr_injective h

theorem head_ne {a b s : String} {c : Char} (hc : ∃ t, b.toList = c :: t) (hd : c.isDigit = false) (h : a = b) (ha : a = s)
    (hs : ∀ x ∈ s.toList, x.isDigit = true) : False := by
  obtain ⟨t, ht⟩ := hc
  have := hs c (by rw [← ha, h, ht]; exact .head _)
  rw [hd] at this; exact Bool.false_ne_true this

/-- The alias begins with `f` if the field has no name. -/
theorem toString_ne_f (n : Nat) (s : String) : toString n ≠ "f" ++ s := fun h =>
  head_ne (c := 'f') ⟨s.toList, by rw [String.toList_append]; rfl⟩ (by decide) h rfl (fun _ hx => digits_toString n hx)

theorem toString_ne_other (n : Nat) (s : String) : toString n ≠ "other" ++ ("_" ++ s) := fun h =>
  head_ne (c := 'o') ⟨"ther".toList ++ ("_" ++ s).toList, by rw [String.toList_append]; rfl⟩ (by decide) h rfl (fun _ hx => digits_toString n hx)

theorem raw_ne (s : String) : "r#" ++ s ≠ s := fun h => by
  have := congrArg (fun t : String => t.toList.length) h
  simp only [String.toList_append, List.length_append] at this
  have h2 : "r#".toList.length = 2 := rfl
  omega

theorem raw_ne_other (s t : String) : "r#" ++ s ≠ "other" ++ t := fun h => by
  have := congrArg String.toList h
  rw [String.toList_append, String.toList_append] at this
  exact absurd (List.cons.inj this).1 (by decide)

/-! ## Aliases -/

/-- What fields are called in arms. -/
def alias (d : DField) : String := d.m.aliasPrefixed none

theorem alias_other (d : DField) : d.m.aliasPrefixed (some "other") = "other_" ++ alias d := by
  show "other" ++ ("_" ++ alias d) = "other_" ++ alias d
  rw [← String.append_assoc]; rfl

theorem alias_inj (h : KeysNodup it) {d d' : DField} (hd : d ∈ it.dfields) (hd' : d' ∈ it.dfields) (e : alias d = alias d') :
    d.m.index = d'.m.index := by
  obtain ⟨j, x, p, hj, rfl⟩ := mem_dfields hd
  obtain ⟨j', x', p', hj', rfl⟩ := mem_dfields hd'
  cases ht : it.tuple with
  | true =>
    simp only [alias, Member.aliasPrefixed, Item.member, ht, if_true] at e
    exact toString_inj (str_append_left e)
  | false =>
    simp only [alias, Member.aliasPrefixed, Item.member, ht, Bool.false_eq_true, if_false] at e
    have h1 := slotOf_field h hd
    have h2 := slotOf_field h hd'
    rw [slotOf_key (b := (it.member x' j').access) (by simp only [Member.access, Item.member, ht, Bool.false_eq_true, if_false, Access.key, e])] at h1
    rw [h1] at h2
    cases h2; rfl

theorem aliases_nodup (h : KeysNodup it) : (it.dfields.map alias).Nodup := by
  have hi := index_nodup (it := it)
  generalize hl : it.dfields = l at hi
  have hs : ∀ d ∈ l, d ∈ it.dfields := fun d hd => hl ▸ hd
  clear hl
  induction l with
  | nil => exact List.nodup_nil
  | cons d l ih =>
    rw [List.map_cons, List.nodup_cons] at hi ⊢
    refine ⟨fun hm => ?_, ih hi.2 fun d hd => hs d (.tail _ hd)⟩
    obtain ⟨d', hd', e⟩ := List.mem_map.1 hm
    exact hi.1 (List.mem_map.2 ⟨d', hd', (alias_inj h (hs d (.head _)) (hs d' (.tail _ hd')) e.symm).symm⟩)

/-- A field written with its alias is found. -/
theorem bindOne_alias (h : KeysNodup it) (who : Slot → Bind) (pre : Option String) (hpre : pre = none ∨ pre = some "other") {d : DField}
    (hd : d ∈ it.dfields) (hk : d.m.aliasPrefixed pre ∉ keywords) :
    bindOne it who (d.m.destructure (d.m.aliasPrefixed pre)) = some (d.m.aliasPrefixed pre, who (.data d.m.index)) := by
  have hs := slotOf_field h hd
  rw [Member.destructure, Member.init]
  split
  · simp only [bindOne, hk, if_false, hs]; rfl
  · rename_i he
    simp only [ne_eq, Decidable.not_not] at he
    simp only [bindOne, hk, if_false]
    have : slotOf it (.name ⟨false, d.m.aliasPrefixed pre⟩) = some (.data d.m.index) := by
      rw [← hs]
      refine slotOf_key ?_
      obtain ⟨j, x, p, hj, rfl⟩ := mem_dfields hd
      cases ht : it.tuple with
      | true =>
        exfalso
        simp only [Member.access, Item.member, ht, if_true, Access.shown, Member.aliasPrefixed] at he
        rcases hpre with rfl | rfl
        · exact toString_ne_f _ _ he
        · exact toString_ne_other _ _ he
      | false =>
        simp only [Member.access, Item.member, ht, Bool.false_eq_true, if_false, Access.shown, Member.aliasPrefixed, Ident.shown] at he
        simp only [Access.key, Member.access, Item.member, ht, Bool.false_eq_true, if_false, Member.aliasPrefixed]
        cases hr : x.raw
        · simp only [hr, Bool.false_eq_true, if_false] at he
          rw [← he]
        · simp only [hr, if_true] at he
          exfalso
          rcases hpre with rfl | rfl
          · exact raw_ne _ he
          · exact raw_ne_other _ _ he
    rw [this]; rfl

/-- The variables of a pattern. -/
def binds (it : Item) (who : Slot → Bind) (pre : Option String) : Scope :=
  it.dfields.map fun d => (d.m.aliasPrefixed pre, who (.data d.m.index))

theorem mapM_destructure (h : KeysNodup it) (who : Slot → Bind) (pre : Option String) (hpre : pre = none ∨ pre = some "other")
    (hk : ∀ d ∈ it.dfields, d.m.aliasPrefixed pre ∉ keywords) : (it.destructure pre).mapM (bindOne it who) = some (binds it who pre) := by
  rw [Item.destructure, List.mapM_map]
  exact mapM_some fun d hd => bindOne_alias h who pre hpre hd (hk d hd)

theorem bindOne_keyword (who : Slot → Bind) {d : DField} {x : String} (hk : x ∈ keywords) : bindOne it who (d.m.destructure x) = none := by
  rw [Member.destructure, Member.init]
  split <;> simp only [bindOne, hk, if_true]

theorem mapM_destructure_keyword (who : Slot → Bind) (pre : Option String) (more : List (Member.Init String)) {d : DField}
    (hd : d ∈ it.dfields) (hk : d.m.aliasPrefixed pre ∈ keywords) : (it.destructure pre ++ more).mapM (bindOne it who) = none :=
  mapM_none (List.mem_append_left _ (List.mem_map.2 ⟨d, hd, rfl⟩)) (bindOne_keyword who hk)

theorem binds_names (who : Slot → Bind) (pre : Option String) : (binds it who pre).map Prod.fst = it.dfields.map fun d => d.m.aliasPrefixed pre := by
  rw [binds, List.map_map]; rfl

theorem prefixed_nodup (h : KeysNodup it) (pre : Option String) : (it.dfields.map fun d => d.m.aliasPrefixed pre).Nodup := by
  have := aliases_nodup h
  cases pre with
  | none => exact this
  | some s =>
    rw [show (it.dfields.map fun d => d.m.aliasPrefixed (some s)) = (it.dfields.map alias).map (fun a => s ++ ("_" ++ a)) from by
      rw [List.map_map]; rfl]
    exact nodup_map (fun a b e => str_append_left (str_append_left e)) this

theorem binds_slots_nodup {who : Slot → Bind} (hw : ∀ s s', who s = who s' → s = s') (pre : Option String) :
    ((binds it who pre).map Prod.snd).Nodup := by
  rw [binds, List.map_map, show (it.dfields.map (Prod.snd ∘ fun d => (d.m.aliasPrefixed pre, who (.data d.m.index)))) =
    (it.dfields.map fun d => Slot.data d.m.index).map who from by rw [List.map_map]; rfl]
  exact nodup_map (fun a b e => hw _ _ e) data_nodup

theorem bindAll_alias (h : KeysNodup it) {who : Slot → Bind} (hw : ∀ s s', who s = who s' → s = s') (pre : Option String)
    (hpre : pre = none ∨ pre = some "other") (hk : ∀ d ∈ it.dfields, d.m.aliasPrefixed pre ∉ keywords) :
    bindAll it who (it.destructure pre) = some (binds it who pre) := by
  rw [bindAll, mapM_destructure h who pre hpre hk]
  simp only [binds_names, prefixed_nodup h pre, binds_slots_nodup hw pre, and_self, if_true]

theorem bindAll_keyword (who : Slot → Bind) (pre : Option String) (more : List (Member.Init String)) {d : DField}
    (hd : d ∈ it.dfields) (hk : d.m.aliasPrefixed pre ∈ keywords) : bindAll it who (it.destructure pre ++ more) = none := by
  rw [bindAll, mapM_destructure_keyword who pre more hd hk]

/-! ## Looking up -/

theorem lookup_alias (h : KeysNodup it) (who : Slot → Bind) (pre : Option String) (Γ : Scope) {d : DField} (hd : d ∈ it.dfields) :
    (binds it who pre ++ Γ).lookup (d.m.aliasPrefixed pre) = some (who (.data d.m.index)) := by
  have hm : (d.m.aliasPrefixed pre, who (.data d.m.index)) ∈ binds it who pre := List.mem_map.2 ⟨d, hd, rfl⟩
  rw [lookup_append, lookup_of_mem (by rw [binds_names]; exact prefixed_nodup h pre) hm]
  rfl

theorem lookup_other (who : Slot → Bind) (pre : Option String) (Γ : Scope) {x : String} (hx : ∀ d ∈ it.dfields, d.m.aliasPrefixed pre ≠ x) :
    (binds it who pre ++ Γ).lookup x = Γ.lookup x := by
  rw [lookup_append, lookup_none (by
    rw [binds_names]; intro hm
    obtain ⟨d, hd, e⟩ := List.mem_map.1 hm
    exact hx d hd e)]
  rfl

end Steit.Derive
