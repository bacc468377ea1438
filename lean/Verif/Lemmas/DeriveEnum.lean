import Verif.Lemmas.DeriveStruct

/-!
# The code that is derived for enums: names in arms
-/

namespace Steit.Derive

open Spec

variable {it : Item}

/-! ## Aliases and variables of templates -/

/-- A name that no field without a name has. -/
def notF (s : String) : Bool :=
  match s.toList with
  | 'f' :: t => t.any fun c => !c.isDigit
  | _ => true

theorem notF_ne {s : String} (h : notF s = true) (n : Nat) : "f" ++ toString n ≠ s := fun e => by
  have h1 : s.toList = 'f' :: (toString n).toList := by rw [← e, String.toList_append]; rfl
  rw [notF, h1] at h
  obtain ⟨c, hc, hd⟩ := List.any_eq_true.1 h
  rw [digits_toString n hc] at hd
  exact Bool.noConfusion hd

theorem notF_keywords {s : String} (h : s ∈ keywords) : notF s = true :=
  (by decide : ∀ s ∈ keywords, notF s = true) s h

theorem alias_tuple (ht : it.tuple = true) {d : DField} (hd : d ∈ it.dfields) : ∃ n : Nat, alias d = "f" ++ toString n := by
  obtain ⟨j, x, p, _, rfl⟩ := mem_dfields hd
  exact ⟨j, by simp only [alias, Member.aliasPrefixed, Item.member, ht, if_true]⟩

theorem alias_named (ht : it.tuple = false) {d : DField} (hd : d ∈ it.dfields) : ∃ x, (x, d.p) ∈ it.fields ∧ alias d = x.text := by
  obtain ⟨j, x, p, hj, rfl⟩ := mem_dfields hd
  exact ⟨x, List.mem_of_getElem? hj, by simp only [alias, Member.aliasPrefixed, Item.member, ht, Bool.false_eq_true, if_false]⟩

theorem named_alias (ht : it.tuple = false) {e : Ident × PField} (he : e ∈ it.fields) : ∃ d ∈ it.dfields, alias d = e.1.text ∧ d.p = e.2 := by
  obtain ⟨x, p⟩ := e
  obtain ⟨d, hd, hn, hp⟩ := dfields_of_mem he
  rw [ht, if_neg Bool.false_ne_true] at hn
  exact ⟨d, hd, by simp only [alias, Member.aliasPrefixed, hn], hp⟩

theorem inState_iff {d : DField} : inState it d.p ↔ d.isState it.state = true := by
  simp [inState, DField.isState]

theorem inState_ex : (∃ e ∈ it.fields, inState it e.2) ↔ ∃ d ∈ it.dfields, d.isState it.state = true := by
  constructor
  · rintro ⟨⟨x, p⟩, he, hs⟩
    obtain ⟨d, hd, _, hp⟩ := dfields_of_mem he
    exact ⟨d, hd, inState_iff.1 (by rw [hp]; exact hs)⟩
  · rintro ⟨d, hd, hs⟩
    obtain ⟨j, x, p, hj, rfl⟩ := mem_dfields hd
    exact ⟨(x, p), List.mem_of_getElem? hj, inState_iff.2 hs⟩

/-- `Free`, of aliases. -/
structure FreeD (it : Item) : Prop where
  plain : ∀ d ∈ it.dfields, alias d ∉ keywords
  vars : ∀ d ∈ it.dfields, ∀ s ∈ ["size", "writer", "reader", "field_number", "wire_type"], alias d ≠ s
  state : it.state = true → ∀ d ∈ it.dfields, ∀ s ∈ ["runtime", "self_runtime", "path", "kind"], alias d ≠ s
  tag : ∀ d ∈ it.dfields, d.isState it.state = true → alias d ≠ "tag"
  key : (∃ d ∈ it.dfields, d.isState it.state = true) → ∀ d ∈ it.dfields, alias d ≠ "key"

theorem free_iff : Free it ↔ FreeD it := by
  cases ht : it.tuple with
  | true =>
    refine ⟨fun _ => ?_, fun _ => .inl ht⟩
    have hne : ∀ {s : String}, notF s = true → ∀ d ∈ it.dfields, alias d ≠ s := fun h d hd => by
      obtain ⟨n, e⟩ := alias_tuple ht hd
      rw [e]; exact notF_ne h n
    refine ⟨fun d hd hk => hne (notF_keywords hk) d hd rfl, fun d hd s hs => hne ?_ d hd, fun _ d hd s hs => hne ?_ d hd,
      fun d hd _ => hne (by decide) d hd, fun _ d hd => hne (by decide) d hd⟩
    · exact (by decide : ∀ s ∈ ["size", "writer", "reader", "field_number", "wire_type"], notF s = true) s hs
    · exact (by decide : ∀ s ∈ ["runtime", "self_runtime", "path", "kind"], notF s = true) s hs
  | false =>
    have hl : Free it ↔ ∀ d ∈ it.dfields, alias d ∉ keywords ∧ alias d ∉ ["size", "writer", "reader", "field_number", "wire_type"] ∧
        (it.state = true → alias d ∉ ["runtime", "self_runtime", "path", "kind"]) ∧ (d.isState it.state = true → alias d ≠ "tag") ∧
        ((∃ d ∈ it.dfields, d.isState it.state = true) → alias d ≠ "key") := by
      rw [Free, inState_ex, ht]
      simp only [Bool.false_eq_true, false_or]
      constructor
      · intro h d hd
        obtain ⟨x, hx, e⟩ := alias_named ht hd
        have := h _ hx
        rw [inState_iff] at this
        rw [e]; exact this
      · intro h e he
        obtain ⟨d, hd, e1, e2⟩ := named_alias ht he
        have := h d hd
        rw [← e1, ← e2, inState_iff]; exact this
    rw [hl]
    constructor
    · intro h
      exact ⟨fun d hd => (h d hd).1, fun d hd s hs e => (h d hd).2.1 (e ▸ hs), fun hst d hd s hs e => (h d hd).2.2.1 hst (e ▸ hs),
        fun d hd => (h d hd).2.2.2.1, fun hx d hd => (h d hd).2.2.2.2 hx⟩
    · intro h d hd
      exact ⟨h.plain d hd, fun hm => h.vars d hd _ hm rfl, fun hst hm => h.state hst d hd _ hm rfl, h.tag d hd, fun hx => h.key hx d hd⟩

theorem freeHash_iff : FreeForHash it ↔ ∀ d ∈ it.dfields, alias d ∉ keywords ∧ alias d ≠ "state" := by
  cases ht : it.tuple with
  | true =>
    refine ⟨fun _ d hd => ?_, fun _ => .inl ht⟩
    obtain ⟨n, e⟩ := alias_tuple ht hd
    rw [e]
    exact ⟨fun hk => notF_ne (notF_keywords hk) n rfl, notF_ne (by decide) n⟩
  | false =>
    rw [FreeForHash, ht]
    simp only [Bool.false_eq_true, false_or]
    constructor
    · intro h d hd
      obtain ⟨x, hx, e⟩ := alias_named ht hd
      rw [e]; exact h _ hx
    · intro h e he
      obtain ⟨d, hd, e1, e2⟩ := named_alias ht he
      rw [← e1]; exact h d hd

theorem freeEq_iff : FreeForEq it ↔ ∀ d ∈ it.dfields, alias d ∉ keywords ∧ alias d ≠ "other" := by
  cases ht : it.tuple with
  | true =>
    refine ⟨fun _ d hd => ?_, fun _ => .inl ht⟩
    obtain ⟨n, e⟩ := alias_tuple ht hd
    rw [e]
    exact ⟨fun hk => notF_ne (notF_keywords hk) n rfl, notF_ne (by decide) n⟩
  | false =>
    rw [FreeForEq, ht]
    simp only [Bool.false_eq_true, false_or]
    constructor
    · intro h d hd
      obtain ⟨x, hx, e⟩ := alias_named ht hd
      rw [e]; exact h _ hx
    · intro h e he
      obtain ⟨d, hd, e1, e2⟩ := named_alias ht he
      rw [← e1]; exact h d hd

theorem noOther_iff : NoOther it ↔ ∀ d ∈ it.dfields, d.p.attrs.noEqHash = false → ∀ d' ∈ it.dfields, alias d ≠ "other_" ++ alias d' := by
  cases ht : it.tuple with
  | true =>
    refine ⟨fun _ d hd _ d' hd' => ?_, fun _ => .inl ht⟩
    obtain ⟨n, e⟩ := alias_tuple ht hd
    rw [e]
    intro h
    have := congrArg String.toList h
    rw [String.toList_append, String.toList_append] at this
    exact absurd (List.cons.inj this).1 (by decide)
  | false =>
    rw [NoOther, ht]
    simp only [Bool.false_eq_true, false_or]
    constructor
    · intro h d hd hq d' hd'
      obtain ⟨x, hx, e⟩ := alias_named ht hd
      obtain ⟨x', hx', e'⟩ := alias_named ht hd'
      rw [e, e']; exact h _ hx hq _ hx'
    · intro h e he hq e' he'
      obtain ⟨d, hd, e1, e2⟩ := named_alias ht he
      obtain ⟨d', hd', e1', e2'⟩ := named_alias ht he'
      rw [← e1, ← e1']; exact h d hd (by rw [e2]; exact hq) d' hd'

theorem notO_keywords {s : String} (h : s ∈ keywords) (t : String) : "other_" ++ t ≠ s := fun e => by
  have h1 : s.toList.take 6 = "other_".toList := by
    rw [← e, String.toList_append, List.take_append_of_le_length (by decide)]
    rfl
  exact (by decide : ∀ s ∈ keywords, s.toList.take 6 ≠ "other_".toList) s h h1

theorem other_plain (d : DField) : d.m.aliasPrefixed (some "other") ∉ keywords := fun h => notO_keywords h (alias d) (alias_other d).symm

/-! ## Variants by name and tag -/

variable {vars : List Var}

theorem find_of_mem {α β : Type} [DecidableEq β] {f : α → β} : ∀ {l : List α}, (l.map f).Nodup → ∀ {a : α}, a ∈ l →
    (l.find? fun b => f b == f a) = some a
  | b :: l, hn, a, h => by
    rw [List.map_cons, List.nodup_cons] at hn
    by_cases e : f b = f a
    · have : b = a := by
        rcases List.mem_cons.1 h with h | h
        · exact h.symm
        · exact absurd (List.mem_map.2 ⟨a, h, e.symm⟩) hn.1
      rw [List.find?_cons_of_pos (by simp [e]), this]
    · rw [List.find?_cons_of_neg (by simp [e])]
      exact find_of_mem hn.2 ((List.mem_cons.1 h).resolve_left fun e' => e (by rw [e']))

theorem varNamed_mem (hn : (vars.map (·.name)).Nodup) {v : Var} (hv : v ∈ vars) : varNamed vars v.name = some v := find_of_mem hn hv

theorem nameOf_mem (ht : (vars.map (·.tag)).Nodup) {v : Var} (hv : v ∈ vars) : nameOf vars v.tag = v.name := by
  rw [nameOf, find_of_mem ht hv]; rfl

theorem eq_of_key {α β : Type} {f : α → β} : ∀ {l : List α}, (l.map f).Nodup → ∀ {a b : α}, a ∈ l → b ∈ l → f a = f b → a = b
  | c :: l, hn, a, b, ha, hb, e => by
    rw [List.map_cons, List.nodup_cons] at hn
    rcases List.mem_cons.1 ha with e1 | h1 <;> rcases List.mem_cons.1 hb with e2 | h2
    · rw [e1, e2]
    · exact absurd (List.mem_map.2 ⟨b, h2, by rw [← e, e1]⟩) hn.1
    · exact absurd (List.mem_map.2 ⟨a, h1, by rw [e, e2]⟩) hn.1
    · exact eq_of_key hn.2 h1 h2 e

theorem lookup_map {α β γ : Type} [BEq β] [LawfulBEq β] {f : α → β} {g : α → γ} {l : List α} (hn : (l.map f).Nodup) {a : α} (ha : a ∈ l) :
    (l.map fun a => (f a, g a)).lookup (f a) = some (g a) :=
  lookup_of_mem (by rw [List.map_map]; exact hn) (List.mem_map.2 ⟨a, ha, rfl⟩)

/-! ## Arms -/

theorem armOf_ok {β : Type} (hn : (vars.map (·.name)).Nodup) {v : Var} (hv : v ∈ vars) {Γ bs : Scope} {pat : List (Member.Init String)}
    {body : Item → Scope → Option β} {b : β} (hb : bindAll v.item .mine pat = some bs) (h : body v.item (bs ++ Γ) = some b) :
    armOf vars Γ v.name pat body = some (v.name, b) := by
  simp only [armOf, varNamed_mem hn hv, hb, h, Option.bind_eq_bind, Option.bind_some]

theorem armOf_inv {β : Type} (hn : (vars.map (·.name)).Nodup) {v : Var} (hv : v ∈ vars) {Γ : Scope} {pat : List (Member.Init String)}
    {body : Item → Scope → Option β} (h : armOf vars Γ v.name pat body ≠ none) :
    ∃ bs, bindAll v.item .mine pat = some bs ∧ body v.item (bs ++ Γ) ≠ none := by
  simp only [armOf, varNamed_mem hn hv, Option.bind_eq_bind, Option.bind_some] at h
  cases hb : bindAll v.item .mine pat with
  | none => rw [hb] at h; exact absurd rfl h
  | some bs =>
    refine ⟨bs, rfl, fun e => h ?_⟩
    rw [hb, Option.bind_some, e]; rfl

theorem mapM_inv {α β : Type} {f : α → Option β} {l : List α} {r : List β} (h : l.mapM f = some r) {a : α} (ha : a ∈ l) : f a ≠ none :=
  fun e => by rw [mapM_none ha e] at h; cases h

theorem mine_inj : ∀ s s' : Slot, Bind.mine s = Bind.mine s' → s = s' := fun _ _ e => by cases e; rfl

theorem others_inj : ∀ s s' : Slot, Bind.others s = Bind.others s' → s = s' := fun _ _ e => by cases e; rfl

theorem bind_fields (h : KeysNodup it) (hp : ∀ d ∈ it.dfields, alias d ∉ keywords) :
    bindAll it .mine (it.destructure none) = some (binds it .mine none) := bindAll_alias h mine_inj none (.inl rfl) hp

theorem bind_plain {bs : Scope} {more : List (Member.Init String)} (hb : bindAll it .mine (it.destructure none ++ more) = some bs) :
    ∀ d ∈ it.dfields, alias d ∉ keywords := fun d hd hk => by
  rw [bindAll_keyword .mine none more hd hk] at hb; cases hb

theorem bind_plain' {bs : Scope} (hb : bindAll it .mine (it.destructure none) = some bs) : ∀ d ∈ it.dfields, alias d ∉ keywords :=
  bind_plain (more := []) (by rw [List.append_nil]; exact hb)

theorem arm_other {Γ : Scope} {x : String} (hx : ∀ d ∈ it.dfields, alias d ≠ x) : (binds it .mine none ++ Γ).lookup x = Γ.lookup x :=
  lookup_other .mine none Γ hx

theorem arm_taken (h : KeysNodup it) {Γ : Scope} {x : String} {b : Bind} (hb : ∀ s, b ≠ .mine s) (hl : (binds it .mine none ++ Γ).lookup x = some b) :
    ∀ d ∈ it.dfields, alias d ≠ x := fun d hd e => by
  have := lookup_alias h .mine none Γ hd
  rw [show d.m.aliasPrefixed none = x from e, hl] at this
  cases this
  exact hb _ rfl

/-- A member by another name. -/
theorem bindOne_member {n : Ident} {i : Nat} {s : Slot} {x : String} (hn : n.raw = false) (hs : slotOf it (it.member n i).access = some s)
    (hx : x ∉ keywords) (hd : ∀ m : Nat, toString m ≠ x) :
    bindOne it .mine ((it.member n i).destructure x) = some (x, .mine s) := by
  rw [Member.destructure, Member.init]
  split
  · simp only [bindOne, hx, if_false, hs]; rfl
  · rename_i he
    simp only [ne_eq, Decidable.not_not] at he
    have : slotOf it (.name ⟨false, x⟩) = some s := by
      rw [← hs]
      refine slotOf_key ?_
      cases ht : it.tuple with
      | true =>
        simp only [Item.member, ht, if_true, Member.access, Access.shown] at he
        exact absurd he (hd i)
      | false =>
        simp only [Item.member, ht, Bool.false_eq_true, if_false, Member.access, Access.shown, Ident.shown, hn] at he
        simp only [Item.member, ht, Bool.false_eq_true, if_false, Member.access, Access.key, he]
    simp only [bindOne, hx, if_false, this]; rfl

theorem toString_ne {s : String} {c : Char} (hc : ∃ t, s.toList = c :: t) (hd : c.isDigit = false) (m : Nat) : toString m ≠ s := fun e =>
  head_ne hc hd e rfl (fun _ hx => digits_toString m hx)

theorem bindOne_cache (h : KeysNodup it) {f : Member} (hf : it.cacheMember = some f) :
    bindOne it .mine (f.destructure "size_cache") = some ("size_cache", .mine .cache) := by
  have hs := slotOf_cache h hf
  cases hc : it.cache with
  | none => simp [Item.cacheMember, hc] at hf
  | some n =>
    simp only [Item.cacheMember, hc, Option.map_some, Option.some.injEq] at hf
    rw [← hf] at hs ⊢
    exact bindOne_member rfl hs (by decide) (toString_ne (c := 's') ⟨_, rfl⟩ (by decide))

theorem bindOne_rt (h : KeysNodup it) {f : Member} (hf : it.runtimeMember = some f) {x : String} (hx : x ∉ keywords) (hd : ∀ m : Nat, toString m ≠ x) :
    bindOne it .mine (f.destructure x) = some (x, .mine .rt) := by
  have hs := slotOf_rt h hf
  cases hst : it.state with
  | false => simp [Item.runtimeMember, hst] at hf
  | true =>
    simp only [Item.runtimeMember, hst, if_true, Option.some.injEq] at hf
    rw [← hf] at hs ⊢
    exact bindOne_member rfl hs hx hd

theorem bindAll_one {who : Slot → Bind} {p : Member.Init String} {b : String × Bind} (h : bindOne it who p = some b) : bindAll it who [p] = some [b] := by
  have : [p].mapM (bindOne it who) = some [b] := by rw [List.mapM_cons, h]; rfl
  rw [bindAll, this]
  simp

end Steit.Derive
