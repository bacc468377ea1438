import Verif.Spec.Declaration

/-!
# Parsing of attributes and declarations
-/

namespace Steit.Derive

open Spec

/-- What an item amounts to. -/
def outcome (table : Table) : Nested → Parsed1
  | .lit _ => .unknown
  | .attr m => match table.kind? m.name with
    | none => .unknown
    | some k => k.parse m

/-- The value an item sets. -/
def setOf (table : Table) : Nested → Option (String × Val)
  | .lit _ => none
  | .attr m => match outcome table (.attr m) with
    | .set v => some (m.name, v)
    | _ => none

/-- The tags an item reserves. -/
def reservedOf (table : Table) (i : Nested) : List U32 :=
  match outcome table i with
  | .reserve ts _ => ts
  | _ => []

def isUnknown (table : Table) (i : Nested) : Bool :=
  match outcome table i with
  | .unknown => true
  | _ => false

/-- Known or to be passed on, with values of the right kind. -/
def itemOk (table : Table) (errorOnUnknown : Bool) (i : Nested) : Prop :=
  match outcome table i with
  | .unknown => errorOnUnknown = false
  | .bad => False
  | .set _ => True
  | .reserve _ n => n = 0

theorem parseAttrs_unknown (table : Table) (e : Bool) : ∀ items seen,
    (parseAttrs table e items seen).unknown = items.filter (isUnknown table)
  | [], _ => rfl
  | .lit l :: items, seen => by
    have : isUnknown table (.lit l) = true := rfl
    simp [parseAttrs, parseAttrs_unknown table e items, this]
  | .attr m :: items, seen => by
    unfold parseAttrs
    cases hk : table.kind? m.name with
    | none => simp [parseAttrs_unknown table e items, isUnknown, outcome, hk]
    | some k =>
      cases hp : k.parse m <;> simp [isUnknown, outcome, hk, hp]
      · exact parseAttrs_unknown table e items seen
      · exact parseAttrs_unknown table e items seen
      · split
        · exact parseAttrs_unknown table e items seen
        · exact parseAttrs_unknown table e items _
      · exact parseAttrs_unknown table e items seen

theorem parseAttrs_reserved (table : Table) (e : Bool) : ∀ items seen,
    (parseAttrs table e items seen).reserved = items.flatMap (reservedOf table)
  | [], _ => rfl
  | .lit l :: items, seen => by
    simp [parseAttrs, parseAttrs_reserved table e items, reservedOf, outcome]
  | .attr m :: items, seen => by
    unfold parseAttrs
    cases hk : table.kind? m.name with
    | none => simp [parseAttrs_reserved table e items, reservedOf, outcome, hk]
    | some k =>
      cases hp : k.parse m <;> simp [reservedOf, outcome, hk, hp]
      · exact parseAttrs_reserved table e items seen
      · exact parseAttrs_reserved table e items seen
      · split
        · exact parseAttrs_reserved table e items seen
        · exact parseAttrs_reserved table e items _
      · exact parseAttrs_reserved table e items seen

theorem parseAttrs_ok (table : Table) (e : Bool) : ∀ items seen,
    (parseAttrs table e items seen).errors = [] ↔
      (∀ i ∈ items, itemOk table e i) ∧ ((items.filterMap (setOf table)).map (·.1)).Nodup ∧
        ∀ n ∈ (items.filterMap (setOf table)).map (·.1), n ∉ seen.map (·.1)
  | [], _ => by simp [parseAttrs]
  | .lit l :: items, seen => by
    have ih := parseAttrs_ok table e items seen
    have h1 : setOf table (.lit l) = none := rfl
    have h2 : itemOk table e (.lit l) ↔ e = false := Iff.rfl
    simp only [parseAttrs, List.append_eq_nil_iff, ih, List.forall_mem_cons, List.filterMap_cons, h1, h2]
    cases e <;> simp
  | .attr m :: items, seen => by
    unfold parseAttrs
    have ih := parseAttrs_ok table e items seen
    cases hk : table.kind? m.name with
    | none =>
      cases e <;> simp_all [itemOk, outcome, setOf]
    | some k =>
      cases hp : k.parse m with
      | unknown => cases e <;> simp_all [itemOk, outcome, setOf]
      | bad => simp_all [itemOk, outcome, setOf]
      | reserve ts n => 
        simp only [List.append_eq_nil_iff, List.replicate_eq_nil_iff, ih, List.forall_mem_cons, List.filterMap_cons, itemOk, outcome,
          setOf, hk, hp]
        simp only [and_assoc]
      | set v =>
        have ih' := parseAttrs_ok table e items (seen ++ [(m.name, v)])
        simp only [List.forall_mem_cons, List.filterMap_cons, itemOk, outcome, setOf, hk, hp, true_and, List.map_cons,
          List.nodup_cons]
        by_cases hs : m.name ∈ seen.map (·.1)
        · rw [if_pos hs]
          constructor
          · intro h; cases h
          · intro h; exact absurd hs (h.2.2.1)
        · rw [if_neg hs, ih']
          simp only [List.map_append, List.map_cons, List.map_nil, List.mem_append, List.mem_singleton, not_or]
          constructor
          · rintro ⟨h1, h2, h3⟩
            exact ⟨h1, ⟨fun hm => (h3 _ hm).2 rfl, h2⟩, hs, fun n hn => (h3 n hn).1⟩
          · rintro ⟨h1, ⟨h2, h3⟩, _, h4⟩
            exact ⟨h1, h3, fun n hn => ⟨h4 n hn, fun he => h2 (he ▸ hn)⟩⟩

theorem parseAttrs_values (table : Table) (e : Bool) : ∀ items seen, (parseAttrs table e items seen).errors = [] →
    (parseAttrs table e items seen).values = seen ++ items.filterMap (setOf table)
  | [], seen => by simp [parseAttrs]
  | .lit l :: items, seen => by
    intro h
    have ih := parseAttrs_values table e items seen
    have h1 : setOf table (.lit l) = none := rfl
    simp only [parseAttrs, List.append_eq_nil_iff, List.filterMap_cons, h1] at h ⊢
    exact ih h.2
  | .attr m :: items, seen => by
    have ih := parseAttrs_values table e items seen
    unfold parseAttrs
    cases hk : table.kind? m.name with
    | none =>
      cases e <;> simp_all [outcome, setOf]
    | some k =>
      cases hp : k.parse m with
      | unknown => cases e <;> simp_all [outcome, setOf]
      | bad => simp_all
      | reserve ts n =>
        simp only [List.append_eq_nil_iff, outcome, setOf, hk, hp, List.filterMap_cons]
        exact fun h => ih h.2
      | set v =>
        have ih' := parseAttrs_values table e items (seen ++ [(m.name, v)])
        simp only [outcome, setOf, hk, hp, List.filterMap_cons]
        split
        · intro h; cases h
        · intro h; rw [ih' h, List.append_assoc]; rfl

/-! ## Reading values off -/

theorem find_mem {l : List (String × Val)} (h : (l.map (·.1)).Nodup) (n : String) (v : Val) :
    l.find? (fun e => e.1 == n) = some (n, v) ↔ (n, v) ∈ l := by
  induction l with
  | nil => simp
  | cons a l ih =>
    obtain ⟨m, w⟩ := a
    simp only [List.map_cons, List.nodup_cons] at h
    rw [List.find?_cons]
    by_cases hm : m = n
    · subst hm
      have : ∀ v, (m, v) ∉ l := fun v hv => h.1 (List.mem_map.2 ⟨_, hv, rfl⟩)
      simp [this, eq_comm]
    · have : (m == n) = false := by simpa using hm
      simp only [this, ih h.2, List.mem_cons, Prod.mk.injEq]
      constructor
      · exact .inr
      · rintro (⟨he, _⟩ | h)
        · exact absurd he.symm hm
        · exact h

theorem find_fst {l : List (String × Val)} {n : String} {e : String × Val} (h : l.find? (fun e => e.1 == n) = some e) :
    e = (n, e.2) := by
  have := List.find?_some h
  simp at this
  rw [← this]

theorem int_iff {p : ParsedAttrs} (h : (p.values.map (·.1)).Nodup) (n : String) (t : U32) :
    p.int? n = some t ↔ (n, .int t) ∈ p.values := by
  rw [← find_mem h]
  unfold ParsedAttrs.int?
  cases hf : p.values.find? fun e => e.1 == n with
  | none => simp
  | some e =>
    have := find_fst hf
    obtain ⟨m, v⟩ := e
    cases this
    cases v <;> simp

theorem flag_iff {p : ParsedAttrs} (h : (p.values.map (·.1)).Nodup) (n : String) :
    p.flag n = true ↔ (n, .bool true) ∈ p.values := by
  rw [← find_mem h]
  unfold ParsedAttrs.flag
  cases hf : p.values.find? fun e => e.1 == n with
  | none => simp
  | some e =>
    have := find_fst hf
    obtain ⟨m, v⟩ := e
    cases this
    cases v <;> simp

/-! ## Tables -/

/-- Names have one kind each. -/
def Table.Functional (table : Table) : Prop := ∀ e ∈ table, ∀ f ∈ table, e.1 = f.1 → e.2 = f.2

instance (table : Table) : Decidable table.Functional := by unfold Table.Functional; infer_instance

theorem kind_iff {table : Table} (h : table.Functional) (n : String) (k : Kind) :
    table.kind? n = some k ↔ (n, k) ∈ table := by
  unfold Table.kind?
  rw [Option.map_eq_some_iff]
  constructor
  · rintro ⟨e, he, rfl⟩
    have := List.mem_of_find?_eq_some he
    have h2 := List.find?_some he
    simp at h2
    subst h2
    exact this
  · intro hm
    cases hf : table.find? fun e => e.1 == n with
    | none =>
      have := List.find?_eq_none.1 hf _ hm
      simp at this
    | some e =>
      refine ⟨e, rfl, ?_⟩
      have h2 := List.find?_some hf
      simp at h2
      exact h _ (List.mem_of_find?_eq_some hf) _ hm h2

theorem kind_append (A B : Table) (n : String) :
    Table.kind? (A ++ B) n = (A.kind? n).or (B.kind? n) := by
  unfold Table.kind?
  rw [List.find?_append]
  cases A.find? fun e => e.1 == n <;> rfl

theorem kind_congr {A B : Table} (hA : A.Functional) (hB : B.Functional) (h : ∀ e, e ∈ A ↔ e ∈ B) (n : String) :
    A.kind? n = B.kind? n := by
  apply Option.ext
  intro k
  rw [kind_iff hA, kind_iff hB, h]

theorem parseU32_iff (l : Lit) (t : U32) : parseU32 l = some t ↔ l = .int t.toNat := by
  cases l with
  | int n =>
    simp only [parseU32, Lit.int.injEq]
    split
    · rename_i h
      simp only [Option.some.injEq]
      constructor
      · rintro rfl
        simp [Nat.mod_eq_of_lt h]
      · rintro rfl; simp
    · rename_i h
      constructor
      · intro h; cases h
      · rintro rfl; exact absurd t.isLt h
  | _ => simp [parseU32]

theorem parseU32_isSome (l : Lit) : (parseU32 l).isSome = true ↔ ∃ k, k < 2 ^ 32 ∧ l = .int k := by
  cases l with
  | int n => simp only [parseU32]; split <;> simp_all
  | _ => simp [parseU32]

/-- Attributes written as demanded are the ones parsed without error. -/
theorem written_iff (k : Kind) (m : Meta) :
    Written k m ↔ match k.parse m with
      | .unknown => False
      | .bad => False
      | .set _ => True
      | .reserve _ n => n = 0 := by
  constructor
  · intro h
    cases h with
    | int h => simp [Kind.parse, parseU32, h]
    | list h =>
      simp only [Kind.parse, List.length_eq_zero_iff, List.filter_eq_nil_iff]
      intro l hl
      obtain ⟨k, hk, rfl⟩ := h l hl
      simp [parseU32, hk]
    | _ => simp [Kind.parse]
  · intro h
    cases k <;> cases m <;> simp only [Kind.parse] at h
    case pathOnly.path => exact .path
    case flag.path => exact .flag
    case flag.nameValue l => cases l <;> first | exact .bool | exact h.elim
    case int.nameValue n l =>
      cases hl : parseU32 l with
      | none => rw [hl] at h; exact h.elim
      | some t => rw [(parseU32_iff _ _).1 hl]; exact .int t.isLt
    case str.nameValue l => cases l <;> first | exact .str | exact h.elim
    case intList.list n is =>
      refine .list fun l hl => ?_
      rw [List.length_eq_zero_iff, List.filter_eq_nil_iff] at h
      have := h l hl
      cases l with
      | none => simp at this
      | some l =>
        simp only [Option.bind_some, Bool.not_eq_true, Option.isNone_eq_false_iff] at this
        obtain ⟨k, hk, rfl⟩ := (parseU32_isSome l).1 this
        exact ⟨k, hk, rfl⟩

theorem parse_set_kind {k : Kind} {m : Meta} {v : Val} (h : k.parse m = .set v) : k ≠ .intList := by
  rintro rfl
  cases m <;> cases h

theorem parse_reserve_kind {k : Kind} {m : Meta} {ts n} (h : k.parse m = .reserve ts n) : k = .intList := by
  cases k <;> cases m <;> simp only [Kind.parse] at h <;> first | rfl | (cases h; done) | (split at h <;> cases h)

/-! ## Attributes well formed -/

/-- `AttrsOk` for a list of items, in terms of `outcome`. -/
structure ItemsOk (table : Table) (items : List Nested) : Prop where
  each : ∀ i ∈ items, itemOk table true i
  once : ((items.filterMap (setOf table)).map (·.1)).Nodup

theorem itemOk_iff {table : Table} (h : table.Functional) (i : Nested) :
    itemOk table true i ↔ ∃ m k, i = .attr m ∧ (m.name, k) ∈ table ∧ Written k m := by
  cases i with
  | lit l => simp [itemOk, outcome]
  | attr m =>
    simp only [itemOk, outcome, Nested.attr.injEq, exists_and_left, exists_eq_left', ← kind_iff h]
    cases hk : table.kind? m.name with
    | none => simp
    | some k =>
      simp only [Option.some.injEq, exists_eq_left', written_iff]
      cases k.parse m <;> simp

theorem setOf_iff {table : Table} (h : table.Functional) (i : Nested) (n : String) (v : Val) :
    setOf table i = some (n, v) ↔ ∃ m k, i = .attr m ∧ m.name = n ∧ (n, k) ∈ table ∧ k.parse m = .set v := by
  cases i with
  | lit l => simp [setOf]
  | attr m =>
    simp only [setOf, outcome, Nested.attr.injEq, exists_and_left, exists_eq_left', ← kind_iff h]
    cases hk : table.kind? m.name with
    | none =>
      simp only [reduceCtorEq, false_iff]
      rintro ⟨rfl, k, hk', _⟩
      rw [hk] at hk'; cases hk'
    | some k =>
      cases hp : k.parse m with
      | set w =>
        simp only [hp, Option.some.injEq, Prod.mk.injEq]
        constructor
        · rintro ⟨rfl, rfl⟩; exact ⟨rfl, k, hk, hp⟩
        · rintro ⟨rfl, k', hk', hp'⟩
          rw [hk] at hk'; cases hk'
          rw [hp] at hp'; cases hp'
          exact ⟨rfl, rfl⟩
      | _ =>
        simp only [hp, reduceCtorEq, false_iff]
        rintro ⟨rfl, k', hk', hp'⟩
        rw [hk] at hk'; cases hk'
        rw [hp] at hp'; cases hp'

theorem itemsOk_iff {table : Table} (h : table.Functional) (items : List Nested) :
    ItemsOk table items ↔ (∀ i ∈ items, ∃ m k, i = .attr m ∧ (m.name, k) ∈ table ∧ Written k m) ∧
      items.Pairwise fun i j => ∀ m m', i = .attr m → j = .attr m' → m.name = m'.name → (m.name, .intList) ∈ table := by
  have key : (∀ i ∈ items, ∃ m k, i = .attr m ∧ (m.name, k) ∈ table ∧ Written k m) →
      (((items.filterMap (setOf table)).map (·.1)).Nodup ↔
      items.Pairwise fun i j => ∀ m m', i = .attr m → j = .attr m' → m.name = m'.name → (m.name, .intList) ∈ table) := by
    intro hk
    rw [List.Nodup, List.pairwise_map, List.pairwise_filterMap]
    constructor
    · intro hp
      refine List.Pairwise.imp_of_mem ?_ hp
      rintro i j hi hj hij m m' rfl rfl hn
      obtain ⟨_, k, he, hmk, hw⟩ := hk _ hi
      cases he
      obtain ⟨_, k', he, hmk', hw'⟩ := hk _ hj
      cases he
      have : k = k' := h _ hmk _ hmk' hn
      subst this
      rw [written_iff] at hw hw'
      cases hp1 : k.parse m with
      | unknown => rw [hp1] at hw; exact hw.elim
      | bad => rw [hp1] at hw; exact hw.elim
      | reserve ts n => rw [parse_reserve_kind hp1] at hmk; exact hmk
      | set v =>
        cases hp2 : k.parse m' with
        | unknown => rw [hp2] at hw'; exact hw'.elim
        | bad => rw [hp2] at hw'; exact hw'.elim
        | reserve ts n => rw [parse_reserve_kind hp2] at hmk; exact hmk
        | set v' =>
          exact absurd hn (hij (m.name, v) ((setOf_iff h _ _ _).2 ⟨m, k, rfl, rfl, hmk, hp1⟩) (m'.name, v')
            ((setOf_iff h _ _ _).2 ⟨m', k, rfl, rfl, hmk', hp2⟩))
    · intro hp
      refine hp.imp ?_
      rintro i j hij ⟨n, v⟩ hv ⟨n', v'⟩ hv' hn
      obtain ⟨m, k, rfl, rfl, hmk, hp1⟩ := (setOf_iff h _ _ _).1 hv
      obtain ⟨m', k', rfl, rfl, hmk', hp2⟩ := (setOf_iff h _ _ _).1 hv'
      have := hij m m' rfl rfl hn
      exact parse_set_kind hp1 (h _ hmk _ this rfl)
  constructor
  · rintro ⟨h1, h2⟩
    have h1' := fun i hi => (itemOk_iff h i).1 (h1 i hi)
    exact ⟨h1', (key h1').1 h2⟩
  · rintro ⟨h1, h2⟩
    exact ⟨fun i hi => (itemOk_iff h i).2 (h1 i hi), (key h1).2 h2⟩

theorem rawItems_eq : ∀ attrs, rawItems attrs = items attrs
  | [] => rfl
  | .steit is :: attrs => by
    show is ++ rawItems attrs = _
    rw [rawItems_eq attrs]; rfl
  | .bad :: attrs => by
    show rawItems attrs = _
    rw [rawItems_eq attrs]; rfl

theorem rawErrors_nil : ∀ attrs, rawErrors attrs = [] ↔ ∀ a ∈ attrs, a ≠ .bad
  | [] => by simp [rawErrors]
  | .steit is :: attrs => by simp [rawErrors, rawErrors_nil attrs]
  | .bad :: attrs => by simp [rawErrors]

theorem attrsOk_iff {table : Table} (h : table.Functional) (attrs : List RawAttr) :
    AttrsOk table attrs ↔ rawErrors attrs = [] ∧ ItemsOk table (rawItems attrs) := by
  rw [itemsOk_iff h, rawErrors_nil, rawItems_eq]
  exact ⟨fun ⟨a, b, c⟩ => ⟨a, b, c⟩, fun ⟨a, b, c⟩ => ⟨a, b, c⟩⟩

theorem ItemsOk.congr {A B : Table} (h : ∀ n, A.kind? n = B.kind? n) (items : List Nested) : ItemsOk A items ↔ ItemsOk B items := by
  have h1 : outcome A = outcome B := by
    funext i; cases i <;> simp only [outcome, h]
  have h2 : setOf A = setOf B := by
    funext i; cases i <;> simp only [setOf, h1]
  constructor
  · rintro ⟨a, b⟩; exact ⟨fun i hi => by unfold itemOk; rw [← h1]; exact a i hi, by rw [← h2]; exact b⟩
  · rintro ⟨a, b⟩; exact ⟨fun i hi => by unfold itemOk; rw [h1]; exact a i hi, by rw [h2]; exact b⟩

/-- Parsing everything at once. -/
theorem parse_once (table : Table) (items : List Nested) :
    (parseAttrs table true items []).errors = [] ↔ ItemsOk table items := by
  rw [parseAttrs_ok]
  exact ⟨fun ⟨a, b, _⟩ => ⟨a, b⟩, fun ⟨a, b⟩ => ⟨a, b, fun _ _ => by simp⟩⟩

theorem outcome_append_known {A B : Table} {i : Nested} (h : isUnknown A i = false) : outcome (A ++ B) i = outcome A i := by
  cases i with
  | lit l => simp [isUnknown, outcome] at h
  | attr m =>
    simp only [isUnknown, outcome] at h
    simp only [outcome, kind_append]
    cases hk : A.kind? m.name with
    | none => rw [hk] at h; simp at h
    | some k => rfl

theorem outcome_append_unknown {A B : Table} (hAB : Table.Functional (A ++ B)) {i : Nested} (h : isUnknown A i = true) :
    outcome (A ++ B) i = outcome B i := by
  cases i with
  | lit l => rfl
  | attr m =>
    simp only [isUnknown, outcome] at h
    simp only [outcome, kind_append]
    cases hk : A.kind? m.name with
    | none => rfl
    | some k =>
      rw [hk] at h
      simp only at h
      have hp : k.parse m = .unknown := by
        cases hp : k.parse m <;> rw [hp] at h <;> first | rfl | cases h
      simp only [Option.some_or, hp]
      cases hk' : B.kind? m.name with
      | none => rfl
      | some k' =>
        have mem : ∀ {T : Table} {k}, T.kind? m.name = some k → (m.name, k) ∈ T := by
          intro T k hT
          unfold Table.kind? at hT
          rw [Option.map_eq_some_iff] at hT
          obtain ⟨e, he, rfl⟩ := hT
          have h2 := List.find?_some he
          simp at h2
          rw [← h2]; exact List.mem_of_find?_eq_some he
        have := hAB _ (List.mem_append_left _ (mem hk)) _ (List.mem_append_right _ (mem hk')) rfl
        simp only at this
        subst this
        exact hp.symm

theorem setOf_append {A B : Table} (hAB : Table.Functional (A ++ B)) (i : Nested) :
    setOf (A ++ B) i = if isUnknown A i then setOf B i else setOf A i := by
  cases hu : isUnknown A i
  · cases i with
    | lit l => rfl
    | attr m => simp only [setOf, outcome_append_known hu]; rfl
  · cases i with
    | lit l => rfl
    | attr m => simp only [setOf, outcome_append_unknown hAB hu]; rfl

/-- What is left over is parsed with the second table. -/
theorem parse_twice {A B : Table} (hA : A.Functional) (hB : B.Functional) (hAB : Table.Functional (A ++ B)) (items : List Nested) :
    ((parseAttrs A false items []).errors = [] ∧ (parseAttrs B true (parseAttrs A false items []).unknown []).errors = []) ↔
      ItemsOk (A ++ B) items := by
  have hset : ∀ i n v, setOf (A ++ B) i = some (n, v) ↔
      setOf A i = some (n, v) ∨ (isUnknown A i = true ∧ setOf B i = some (n, v)) := by
    intro i n v
    rw [setOf_append hAB]
    cases hu : isUnknown A i
    · simp
    · have : setOf A i = none := by
        cases i with
        | lit l => rfl
        | attr m =>
          unfold isUnknown at hu
          simp only [setOf]
          cases ho : outcome A (.attr m) <;> rw [ho] at hu <;> first | rfl | cases hu
      simp [this]
  rw [parseAttrs_ok, parse_once, parseAttrs_unknown]
  constructor
  · rintro ⟨⟨h1, h2, _⟩, h3, h4⟩
    refine ⟨fun i hi => ?_, ?_⟩
    · cases hu : isUnknown A i
      · unfold itemOk
        rw [outcome_append_known hu]
        have := h1 i hi
        unfold itemOk at this
        unfold isUnknown at hu
        cases ho : outcome A i <;> rw [ho] at this hu <;> first | exact this | cases hu
      · unfold itemOk
        rw [outcome_append_unknown hAB hu]
        exact h3 i (List.mem_filter.2 ⟨hi, hu⟩)
    · rw [List.Nodup, List.pairwise_map, List.pairwise_filterMap] at h2 h4 ⊢
      rw [List.pairwise_filter] at h4
      refine List.Pairwise.imp ?_ (h2.and h4)
      rintro i j ⟨hi2, hi4⟩ ⟨n, v⟩ hv ⟨n', v'⟩ hv' hn
      simp only at hn
      subst hn
      rcases (hset _ _ _).1 hv with hv1 | ⟨hu1, hv1⟩ <;> rcases (hset _ _ _).1 hv' with hv2 | ⟨hu2, hv2⟩
      · exact hi2 _ hv1 _ hv2 rfl
      · obtain ⟨m, k, rfl, hm, hk, hp⟩ := (setOf_iff hA _ _ _).1 hv1
        obtain ⟨m', k', rfl, hm', hk', hp'⟩ := (setOf_iff hB _ _ _).1 hv2
        have := hAB _ (List.mem_append_left _ hk) _ (List.mem_append_right _ hk') rfl
        simp only at this
        subst this
        simp only [isUnknown, outcome] at hu2
        rw [hm', (kind_iff hA _ _).2 hk] at hu2
        simp only [hp'] at hu2
        cases hu2
      · obtain ⟨m, k, rfl, hm, hk, hp⟩ := (setOf_iff hA _ _ _).1 hv2
        obtain ⟨m', k', rfl, hm', hk', hp'⟩ := (setOf_iff hB _ _ _).1 hv1
        have := hAB _ (List.mem_append_left _ hk) _ (List.mem_append_right _ hk') rfl
        simp only at this
        subst this
        simp only [isUnknown, outcome] at hu1
        rw [hm', (kind_iff hA _ _).2 hk] at hu1
        simp only [hp'] at hu1
        cases hu1
      · exact hi4 hu1 hu2 _ hv1 _ hv2 rfl
  · rintro ⟨h1, h2⟩
    rw [List.Nodup, List.pairwise_map, List.pairwise_filterMap] at h2
    refine ⟨⟨fun i hi => ?_, ?_, by simp⟩, fun i hi => ?_, ?_⟩
    · have := h1 i hi
      cases hu : isUnknown A i
      · unfold itemOk at this ⊢
        rw [outcome_append_known hu] at this
        unfold isUnknown at hu
        cases ho : outcome A i <;> rw [ho] at this hu <;> first | exact this | cases hu
      · unfold itemOk
        unfold isUnknown at hu
        cases ho : outcome A i <;> rw [ho] at hu <;> first | rfl | cases hu
    · rw [List.Nodup, List.pairwise_map, List.pairwise_filterMap]
      refine h2.imp ?_
      rintro i j hij ⟨n, v⟩ hv ⟨n', v'⟩ hv'
      exact hij _ ((hset _ _ _).2 (.inl hv)) _ ((hset _ _ _).2 (.inl hv'))
    · obtain ⟨hi, hu⟩ := List.mem_filter.1 hi
      have := h1 i hi
      unfold itemOk at this ⊢
      rw [outcome_append_unknown hAB hu] at this
      exact this
    · rw [List.Nodup, List.pairwise_map, List.pairwise_filterMap, List.pairwise_filter]
      refine h2.imp ?_
      rintro i j hij hu1 hu2 ⟨n, v⟩ hv ⟨n', v'⟩ hv'
      exact hij _ ((hset _ _ _).2 (.inr ⟨hu1, hv⟩)) _ ((hset _ _ _).2 (.inr ⟨hu2, hv'⟩))

/-! ## Values of attributes that parse -/

theorem values_eq {T : Table} {e : Bool} {its : List Nested} (h : (parseAttrs T e its []).errors = []) :
    (parseAttrs T e its []).values = its.filterMap (setOf T) ∧ ((parseAttrs T e its []).values.map (·.1)).Nodup := by
  rw [parseAttrs_values T e its [] h]
  exact ⟨rfl, ((parseAttrs_ok T e its []).1 h).2.1⟩

theorem int_of {T : Table} (hT : T.Functional) {e : Bool} {its : List Nested} (h : (parseAttrs T e its []).errors = []) {n : String}
    (hn : (n, .int) ∈ T) (t : U32) :
    (parseAttrs T e its []).int? n = some t ↔ .attr (.nameValue n (.int t.toNat)) ∈ its := by
  obtain ⟨h1, h2⟩ := values_eq h
  rw [int_iff h2, h1, List.mem_filterMap]
  constructor
  · rintro ⟨i, hi, hs⟩
    obtain ⟨m, k, rfl, rfl, hk, hp⟩ := (setOf_iff hT _ _ _).1 hs
    have := hT _ hk _ hn rfl
    simp only at this
    subst this
    cases m with
    | nameValue n l =>
      simp only [Kind.parse] at hp
      cases hl : parseU32 l with
      | none => rw [hl] at hp; cases hp
      | some t' =>
        rw [hl] at hp
        cases hp
        rw [(parseU32_iff _ _).1 hl] at hi
        exact hi
    | _ => cases hp
  · intro hi
    refine ⟨_, hi, (setOf_iff hT _ _ _).2 ⟨_, _, rfl, rfl, hn, ?_⟩⟩
    simp only [Kind.parse, (parseU32_iff (.int t.toNat) t).2 rfl]

theorem flag_of {T : Table} (hT : T.Functional) {e : Bool} {its : List Nested} (h : (parseAttrs T e its []).errors = [])
    {n : String} (hn : (n, .flag) ∈ T) :
    (parseAttrs T e its []).flag n = true ↔ .attr (.path n) ∈ its ∨ .attr (.nameValue n (.bool true)) ∈ its := by
  obtain ⟨h1, h2⟩ := values_eq h
  rw [flag_iff h2, h1, List.mem_filterMap]
  constructor
  · rintro ⟨i, hi, hs⟩
    obtain ⟨m, k, rfl, rfl, hk, hp⟩ := (setOf_iff hT _ _ _).1 hs
    have := hT _ hk _ hn rfl
    simp only at this
    subst this
    cases m with
    | path n => exact .inl hi
    | nameValue n l =>
      cases l <;> simp only [Kind.parse] at hp <;> cases hp
      exact .inr hi
    | list => cases hp
  · rintro (hi | hi)
    · exact ⟨_, hi, (setOf_iff hT _ _ _).2 ⟨_, _, rfl, rfl, hn, rfl⟩⟩
    · exact ⟨_, hi, (setOf_iff hT _ _ _).2 ⟨_, _, rfl, rfl, hn, rfl⟩⟩

theorem path_of {T : Table} (hT : T.Functional) {e : Bool} {its : List Nested} (h : (parseAttrs T e its []).errors = [])
    {n : String} (hn : (n, .pathOnly) ∈ T) :
    (parseAttrs T e its []).flag n = true ↔ .attr (.path n) ∈ its := by
  obtain ⟨h1, h2⟩ := values_eq h
  rw [flag_iff h2, h1, List.mem_filterMap]
  constructor
  · rintro ⟨i, hi, hs⟩
    obtain ⟨m, k, rfl, rfl, hk, hp⟩ := (setOf_iff hT _ _ _).1 hs
    have := hT _ hk _ hn rfl
    simp only at this
    subst this
    cases m with
    | path n => exact hi
    | _ => cases hp
  · intro hi
    exact ⟨_, hi, (setOf_iff hT _ _ _).2 ⟨_, _, rfl, rfl, hn, rfl⟩⟩

theorem reserved_of {T : Table} (hT : T.Functional) (e : Bool) (its : List Nested) {n : String}
    (hn : (n, .intList) ∈ T) (ho : ∀ e ∈ T, e.2 = .intList → e.1 = n) (t : U32) :
    t ∈ (parseAttrs T e its []).reserved ↔ ∃ is, .attr (.list n is) ∈ its ∧ some (.int t.toNat) ∈ is := by
  rw [parseAttrs_reserved, List.mem_flatMap]
  constructor
  · rintro ⟨i, hi, ht⟩
    cases i with
    | lit l => simp [reservedOf, outcome] at ht
    | attr m =>
      simp only [reservedOf, outcome] at ht
      cases hk : T.kind? m.name with
      | none => rw [hk] at ht; simp at ht
      | some k =>
        rw [hk] at ht
        simp only at ht
        cases hp : k.parse m with
        | reserve ts b =>
          rw [hp] at ht
          have hk2 := parse_reserve_kind hp
          subst hk2
          have hmn := ho _ ((kind_iff hT _ _).1 hk) rfl
          simp only at hmn
          cases m with
          | list n' is =>
            cases hmn
            simp only [Kind.parse, Parsed1.reserve.injEq] at hp
            obtain ⟨rfl, _⟩ := hp
            obtain ⟨l, hl, hlt⟩ := List.mem_filterMap.1 ht
            cases l with
            | none => cases hlt
            | some l =>
              simp only [Option.bind_some, parseU32_iff] at hlt
              subst hlt
              exact ⟨is, hi, hl⟩
          | _ => cases hp
        | _ => rw [hp] at ht; simp at ht
  · rintro ⟨is, hi, ht⟩
    refine ⟨_, hi, ?_⟩
    have : T.kind? (Meta.list n is).name = some .intList := (kind_iff hT _ _).2 hn
    simp only [reservedOf, outcome, this, Kind.parse]
    exact List.mem_filterMap.2 ⟨_, ht, (parseU32_iff _ _).2 rfl⟩

theorem mem_unknown {A : Table} (its : List Nested) (e : Bool) (m : Meta) (h : A.kind? m.name = none) :
    .attr m ∈ (parseAttrs A e its []).unknown ↔ .attr m ∈ its := by
  rw [parseAttrs_unknown, List.mem_filter]
  simp [isUnknown, outcome, h]

/-! ## Types -/

mutual
theorem supported_iff : ∀ t : SynTy, t.supported = true ↔ Supported t
  | .paren t => by
    rw [SynTy.supported, supported_iff t]
    exact ⟨.paren, fun h => by cases h; assumption⟩
  | .array t => by
    rw [SynTy.supported, supported_iff t]
    exact ⟨.array, fun h => by cases h; assumption⟩
  | .path true args => ⟨fun h => by simp [SynTy.supported] at h, fun h => nomatch h⟩
  | .path false .none => ⟨fun _ => .plain, fun _ => rfl⟩
  | .path false (.angle args) => by
    rw [SynTy.supported, SynArgs.supported, supportedArgs_iff args]
    exact ⟨.angle, fun h => by cases h; assumption⟩
  | .path false .parenthesized => ⟨fun h => by simp [SynTy.supported, SynArgs.supported] at h, fun h => nomatch h⟩
  | .other => ⟨fun h => by simp [SynTy.supported] at h, fun h => nomatch h⟩

theorem supportedArgs_iff : ∀ l : SynArgList, l.supported = true ↔ SupportedArgs l
  | .nil => ⟨fun _ => .nil, fun _ => rfl⟩
  | .lifetime rest => by
    rw [SynArgList.supported, supportedArgs_iff rest]
    exact ⟨.lifetime, fun h => by cases h; assumption⟩
  | .type t rest => by
    rw [SynArgList.supported, Bool.and_eq_true, supported_iff t, supportedArgs_iff rest]
    exact ⟨fun h => .type h.1 h.2, fun h => by cases h; exact ⟨by assumption, by assumption⟩⟩
  | .other rest => ⟨fun h => by simp [SynArgList.supported] at h, fun h => nomatch h⟩
end

/-! ## Fields -/

theorem raw_ok {T N : Table} (hT : T.Functional) (hN : N.Functional) (h : ∀ e, e ∈ T ↔ e ∈ N) (attrs : List RawAttr) :
    (parseRaw T true attrs).errors = [] ↔ AttrsOk N attrs := by
  rw [attrsOk_iff hN, ← ItemsOk.congr (kind_congr hT hN h), ← parse_once]
  simp [parseRaw]

theorem tag_le (t : U32) : ¬ t > tagMax ↔ t.toNat < 2 ^ 29 := by
  have : tagMax.toNat = 2 ^ 29 - 1 := by decide
  rw [gt_iff_lt, BitVec.lt_def, this]
  omega

theorem fieldTable_fn : Table.Functional fieldTable := by decide
theorem fieldNames_fn : Table.Functional fieldNames := by decide
theorem fieldTable_names : ∀ e, e ∈ fieldTable ↔ e ∈ fieldNames := by
  intro e
  simp only [fieldTable, fieldNames, List.mem_cons, List.not_mem_nil, or_false]
  constructor <;> (intro h; rcases h with h | h | h | h | h <;> simp [h])

theorem parseField_none {s : Setting} {f : FieldDecl} {errs} (h : parseField s f = (errs, none)) : errs ≠ [] := by
  unfold parseField at h
  simp only at h
  split at h
  · cases h; simp
  · split at h
    · cases h; simp
    · split at h <;> cases h
      simp

theorem parseField_some (s : Setting) (f : FieldDecl) (p : PField) :
    parseField s f = ([], some p) ↔ AttrsOk fieldNames f.attrs ∧ p.tag.toNat < 2 ^ 29 ∧
      (s.deriveMeta = true → Supported f.syn) ∧ FieldIs f p := by
  rw [← raw_ok fieldTable_fn fieldNames_fn fieldTable_names]
  have hint : (parseRaw fieldTable true f.attrs).errors = [] → ∀ t,
      (parseRaw fieldTable true f.attrs).int? "tag" = some t ↔ HasTag f.attrs t := by
    intro h t
    have h' : (parseAttrs fieldTable true (rawItems f.attrs) []).errors = [] := (List.append_eq_nil_iff.1 h).2
    unfold HasTag
    rw [← rawItems_eq]
    exact int_of fieldTable_fn h' (by decide) t
  have hflag : (parseRaw fieldTable true f.attrs).errors = [] → ∀ n, (n, .flag) ∈ fieldTable →
      ((parseRaw fieldTable true f.attrs).flag n = true ↔ HasFlag f.attrs n) := by
    intro h n hn
    have h' : (parseAttrs fieldTable true (rawItems f.attrs) []).errors = [] := (List.append_eq_nil_iff.1 h).2
    unfold HasFlag
    rw [← rawItems_eq]
    exact flag_of fieldTable_fn h' hn
  constructor
  · intro h
    unfold parseField at h
    simp only at h
    split at h
    · simp at h
    · rename_i t ht
      split at h
      · simp at h
      · rename_i hle
        split at h
        · simp at h
        · rename_i hs
          simp only [Prod.mk.injEq, Option.some.injEq] at h
          obtain ⟨he, rfl⟩ := h
          refine ⟨he, (tag_le _).1 hle, ?_, (hint he _).1 ht, hflag he _ (by decide), hflag he _ (by decide), hflag he _ (by decide),
            rfl, rfl⟩
          intro hm
          rw [← supported_iff]
          simpa [hm] using hs
  · rintro ⟨he, hle, hs, hf⟩
    unfold parseField
    simp only
    rw [(hint he _).2 hf.tag]
    simp only
    rw [if_neg ((tag_le _).2 hle), if_neg, he]
    · have e1 := (hflag he "no_state" (by decide)).trans hf.noState.symm
      have e2 := (hflag he "no_hash" (by decide)).trans hf.noHash.symm
      have e3 := (hflag he "no_eq_hash" (by decide)).trans hf.noEqHash.symm
      obtain ⟨t, ⟨a, b, c, d⟩, ty⟩ := p
      have := hf.ty
      have hd := hf.param
      simp only at this hd e1 e2 e3
      rw [Bool.eq_iff_iff.2 e1, Bool.eq_iff_iff.2 e2, Bool.eq_iff_iff.2 e3, this, hd]
    · intro h
      rw [Bool.and_eq_true, Bool.not_eq_true'] at h
      have := (supported_iff _).2 (hs h.1)
      rw [this] at h
      exact absurd h.2 (by decide)

theorem tagErrors_nil (R tags : List U32) (t : U32) : tagErrors R tags t = [] ↔ t ∉ R ∧ t ∉ tags := by
  unfold tagErrors
  by_cases h1 : t ∈ R <;> by_cases h2 : t ∈ tags <;> simp [h1, h2]

/-- The fields parsed without error. -/
theorem fieldsLoop_iff (s : Setting) (R : List U32) : ∀ (fs : List FieldDecl) (tags : List U32) (ps : List PField),
    parseFieldsLoop s R fs tags = ([], true, ps) ↔
      All₂ (fun f p => parseField s f = ([], some p)) fs ps ∧ (ps.map (·.tag)).Nodup ∧ ∀ p ∈ ps, p.tag ∉ R ∧ p.tag ∉ tags
  | [], tags, ps => by
    simp only [parseFieldsLoop, Prod.mk.injEq, true_and]
    constructor
    · rintro rfl; exact ⟨.nil, by simp, by simp⟩
    · rintro ⟨h, _⟩; cases h; rfl
  | f :: fs, tags, ps => by
    unfold parseFieldsLoop
    cases hf : parseField s f with
    | mk errs o =>
      cases o with
      | none =>
        have hne := parseField_none hf
        simp only [Prod.mk.injEq, List.append_eq_nil_iff]
        constructor
        · intro h; exact absurd h.1.1 hne
        · rintro ⟨h, _⟩
          cases h with
          | cons h _ => rw [hf] at h; cases h
      | some p =>
        have ih := fieldsLoop_iff s R fs (p.tag :: tags)
        simp only [Prod.mk.injEq, List.append_eq_nil_iff, tagErrors_nil, Bool.and_eq_true, decide_eq_true_eq]
        constructor
        · rintro ⟨⟨⟨rfl, h1, h2⟩, h3⟩, ⟨h4, _⟩, h5⟩
          have ih' := (ih (parseFieldsLoop s R fs (p.tag :: tags)).2.2).1 (by rw [← h3, ← h4])
          rw [← h5]
          obtain ⟨a, b, c⟩ := ih'
          refine ⟨.cons hf a, ?_, ?_⟩
          · rw [List.map_cons, List.nodup_cons]
            refine ⟨?_, b⟩
            intro hm
            obtain ⟨q, hq, hqt⟩ := List.mem_map.1 hm
            exact (c q hq).2 (hqt ▸ List.mem_cons_self)
          · intro q hq
            cases hq with
            | head => exact ⟨h1, h2⟩
            | tail _ hq => exact ⟨(c q hq).1, fun h => (c q hq).2 (List.mem_cons_of_mem _ h)⟩
        · rintro ⟨a, b, c⟩
          cases a with
          | cons h a =>
            rw [hf] at h
            cases h
            rw [List.map_cons, List.nodup_cons] at b
            have := (ih _).2 ⟨a, b.2, fun q hq => ⟨(c q (List.mem_cons_of_mem _ hq)).1, ?_⟩⟩
            · rw [this]
              exact ⟨⟨⟨rfl, c _ List.mem_cons_self⟩, rfl⟩, ⟨rfl, (c _ List.mem_cons_self).2⟩, rfl⟩
            · rw [List.mem_cons, not_or]
              refine ⟨?_, (c q (List.mem_cons_of_mem _ hq)).2⟩
              intro he
              exact b.1 (he ▸ List.mem_map.2 ⟨q, hq, rfl⟩)

theorem fieldsLoop_ok (s : Setting) (R : List U32) : ∀ (fs : List FieldDecl) (tags : List U32),
    (parseFieldsLoop s R fs tags).1 = [] → (parseFieldsLoop s R fs tags).2.1 = true
  | [], tags => fun _ => rfl
  | f :: fs, tags => by
    unfold parseFieldsLoop
    cases hf : parseField s f with
    | mk errs o =>
      cases o with
      | none =>
        have hne := parseField_none hf
        simp only [List.append_eq_nil_iff]
        intro h; exact absurd h.1 hne
      | some p =>
        simp only [List.append_eq_nil_iff, tagErrors_nil, Bool.and_eq_true, decide_eq_true_eq]
        rintro ⟨⟨_, _, h2⟩, h3⟩
        exact ⟨fieldsLoop_ok s R fs _ h3, h2⟩

theorem Spec.All₂.length {α β : Type} {R : α → β → Prop} : ∀ {as : List α} {bs : List β}, All₂ R as bs → bs.length = as.length
  | _, _, .nil => rfl
  | _, _, .cons _ h => by simp [All₂.length h]

theorem Spec.All₂.imp {α β : Type} {R S : α → β → Prop} (hi : ∀ a b, R a b → S a b) : ∀ {as : List α} {bs : List β}, All₂ R as bs → All₂ S as bs
  | _, _, .nil => .nil
  | _, _, .cons h hs => .cons (hi _ _ h) (All₂.imp hi hs)

theorem parseFields_iff (s : Setting) (R : List U32) (fs : List FieldDecl) (ps : List PField) :
    parseFields s R fs = ([], some ps) ↔
      All₂ (fun f p => parseField s f = ([], some p)) fs ps ∧ (ps.map (·.tag)).Nodup ∧ ∀ p ∈ ps, p.tag ∉ R := by
  have h := fieldsLoop_iff s R fs [] ps
  simp only [List.not_mem_nil, not_false_eq_true, and_true] at h
  rw [← h]
  unfold parseFields
  simp only [Prod.mk.injEq]
  constructor
  · rintro ⟨h1, h2⟩
    split at h2
    · rename_i h3
      cases h2
      exact Prod.ext h1 (Prod.ext h3.2 rfl)
    · cases h2
  · intro hl
    have := All₂.length (h.1 hl).1
    rw [hl]
    simp [this]

theorem parseFields_ok {s : Setting} {R : List U32} {fs : List FieldDecl} (h : (parseFields s R fs).1 = []) :
    ∃ ps, parseFields s R fs = ([], some ps) := by
  have h' : (parseFieldsLoop s R fs []).1 = [] := h
  have h2 := fieldsLoop_ok s R fs [] h'
  have h3 := (fieldsLoop_iff s R fs [] (parseFieldsLoop s R fs []).2.2).1 (Prod.ext h' (Prod.ext h2 rfl))
  refine ⟨(parseFieldsLoop s R fs []).2.2, Prod.ext h ?_⟩
  show (if _ then _ else _) = _
  rw [if_pos ⟨All₂.length h3.1, h2⟩]

theorem hasTag_unique {N : Table} {attrs : List RawAttr} (hN : ("tag", .int) ∈ N) (hF : N.Functional) (h : AttrsOk N attrs) {t t' : U32} (ht : HasTag attrs t)
    (ht' : HasTag attrs t') : t = t' := by
  have h' := (attrsOk_iff hF attrs).1 h
  have he := (parse_once N (rawItems attrs)).2 h'.2
  unfold HasTag at ht ht'
  rw [← rawItems_eq] at ht ht'
  have e1 := (int_of hF he hN t).2 ht
  have e2 := (int_of hF he hN t').2 ht'
  rw [e1] at e2
  exact Option.some.inj e2

/-- Choosing for each element. -/
theorem Spec.All₂.choose {α β : Type} {R : α → β → Prop} : ∀ {as : List α}, (∀ a ∈ as, ∃ b, R a b) → ∃ bs, All₂ R as bs
  | [], _ => ⟨[], .nil⟩
  | a :: as, h => by
    obtain ⟨b, hb⟩ := h a List.mem_cons_self
    obtain ⟨bs, hbs⟩ := All₂.choose (as := as) fun a ha => h a (List.mem_cons_of_mem _ ha)
    exact ⟨b :: bs, .cons hb hbs⟩

theorem Spec.All₂.left {α β : Type} {R : α → β → Prop} : ∀ {as : List α} {bs : List β}, All₂ R as bs → ∀ a ∈ as, ∃ b ∈ bs, R a b
  | _, _, .cons h hs, a, ha => by
    cases ha with
    | head => exact ⟨_, List.mem_cons_self, h⟩
    | tail _ ha =>
      obtain ⟨b, hb, hr⟩ := All₂.left hs a ha
      exact ⟨b, List.mem_cons_of_mem _ hb, hr⟩

theorem Spec.All₂.right {α β : Type} {R : α → β → Prop} : ∀ {as : List α} {bs : List β}, All₂ R as bs → ∀ b ∈ bs, ∃ a ∈ as, R a b
  | _, _, .cons h hs, b, hb => by
    cases hb with
    | head => exact ⟨_, List.mem_cons_self, h⟩
    | tail _ hb =>
      obtain ⟨a, ha, hr⟩ := All₂.right hs b hb
      exact ⟨a, List.mem_cons_of_mem _ ha, hr⟩

theorem Spec.All₂.pairwise {α β : Type} {R : α → β → Prop} {P : α → α → Prop} {Q : β → β → Prop}
    (h : ∀ a b a' b', R a b → R a' b' → (P a a' ↔ Q b b')) : ∀ {as : List α} {bs : List β}, All₂ R as bs → (as.Pairwise P ↔ bs.Pairwise Q)
  | _, _, .nil => by simp
  | _, _, .cons hr hs => by
    rw [List.pairwise_cons, List.pairwise_cons, All₂.pairwise h hs]
    refine and_congr_left fun _ => ⟨fun hp b hb => ?_, fun hp a ha => ?_⟩
    · obtain ⟨a, ha, hr'⟩ := All₂.right hs b hb
      exact (h _ _ _ _ hr hr').1 (hp a ha)
    · obtain ⟨b, hb, hr'⟩ := All₂.left hs a ha
      exact (h _ _ _ _ hr hr').2 (hp b hb)

theorem fields_ok_iff (s : Setting) (wantsMeta : Prop) (hm : s.deriveMeta = true ↔ wantsMeta) (attrs : List RawAttr) (R : List U32)
    (hR : ∀ t, t ∈ R ↔ Reserves attrs t) (fs : List FieldDecl) :
    (parseFields s R fs).1 = [] ↔ FieldsOk wantsMeta attrs fs := by
  have uniq : ∀ (f : FieldDecl) (p : PField), parseField s f = ([], some p) → ∀ t, HasTag f.attrs t ↔ t = p.tag := by
    intro f p h t
    obtain ⟨h1, _, _, h4⟩ := (parseField_some s f p).1 h
    exact ⟨fun ht => hasTag_unique (by decide) fieldNames_fn h1 ht h4.tag, fun ht => ht ▸ h4.tag⟩
  have pw : ∀ {ps : List PField}, All₂ (fun f p => parseField s f = ([], some p)) fs ps →
      ((fs.Pairwise fun f g => ∀ t, HasTag f.attrs t → ¬ HasTag g.attrs t) ↔ (ps.map (·.tag)).Nodup) := by
    intro ps h
    rw [List.Nodup, List.pairwise_map]
    refine All₂.pairwise ?_ h
    intro f p g q hf hg
    constructor
    · intro hh he
      exact hh p.tag ((uniq f p hf _).2 rfl) ((uniq g q hg _).2 he)
    · intro hh t ht ht'
      exact hh (((uniq f p hf _).1 ht).symm.trans ((uniq g q hg _).1 ht'))
  constructor
  · intro h
    obtain ⟨ps, h⟩ := parseFields_ok h
    obtain ⟨h1, h2, h3⟩ := (parseFields_iff s R fs ps).1 h
    refine ⟨fun f hf => ?_, (pw h1).2 h2, fun f hf t ht => ?_⟩
    · obtain ⟨p, _, hp⟩ := h1.left f hf
      obtain ⟨a, b, c, d⟩ := (parseField_some s f p).1 hp
      exact ⟨a, ⟨p.tag, d.tag, b⟩, fun hw => c (hm.2 hw)⟩
    · obtain ⟨p, hp, hfp⟩ := h1.left f hf
      rw [(uniq f p hfp t).1 ht, ← hR]
      exact h3 p hp
  · rintro ⟨h1, h2, h3⟩
    have : ∀ f ∈ fs, ∃ p, parseField s f = ([], some p) := by
      intro f hf
      obtain ⟨a, ⟨t, ht, htl⟩, c⟩ := h1 f hf
      refine ⟨⟨t, ⟨(parseRaw fieldTable true f.attrs).flag "no_state", (parseRaw fieldTable true f.attrs).flag "no_hash",
        (parseRaw fieldTable true f.attrs).flag "no_eq_hash", f.param⟩, f.ty⟩, (parseField_some s f _).2 ⟨a, htl, fun hw => c (hm.1 hw), ?_⟩⟩
      have he := (raw_ok fieldTable_fn fieldNames_fn fieldTable_names f.attrs).2 a
      have h' : (parseAttrs fieldTable true (rawItems f.attrs) []).errors = [] := (List.append_eq_nil_iff.1 he).2
      have fl : ∀ n, (n, .flag) ∈ fieldTable → ((parseRaw fieldTable true f.attrs).flag n = true ↔ HasFlag f.attrs n) := by
        intro n hn
        unfold HasFlag
        rw [← rawItems_eq]
        exact flag_of fieldTable_fn h' hn
      exact ⟨ht, fl _ (by decide), fl _ (by decide), fl _ (by decide), rfl, rfl⟩
    obtain ⟨ps, hps⟩ := All₂.choose this
    have := (parseFields_iff s R fs ps).2 ⟨hps, (pw hps).1 h2, fun p hp => ?_⟩
    · rw [this]
    · obtain ⟨f, hf, hfp⟩ := hps.right p hp
      rw [hR]
      exact h3 f hf _ ((uniq f p hfp _).2 rfl)

/-! ## Structs, variants, settings -/

theorem raw_twice {A B N : Table} (hA : A.Functional) (hB : B.Functional) (hAB : Table.Functional (A ++ B)) (hN : N.Functional)
    (h : ∀ e, e ∈ A ++ B ↔ e ∈ N) (attrs : List RawAttr) :
    ((parseRaw A false attrs).errors = [] ∧ (parseAttrs B true (parseRaw A false attrs).unknown []).errors = []) ↔ AttrsOk N attrs := by
  rw [attrsOk_iff hN, ← ItemsOk.congr (kind_congr hAB hN h), ← parse_twice hA hB hAB]
  simp [parseRaw, and_assoc]

theorem variantTable_fn : Table.Functional variantTable := by decide
theorem structTable_fn : Table.Functional structTable := by decide
theorem enumTable_fn : Table.Functional enumTable := by decide
theorem settingTable_fn : Table.Functional settingTable := by decide
theorem argTable_fn : Table.Functional argTable := by decide
theorem variantNames_fn : Table.Functional variantNames := by decide
theorem typeNames_fn : Table.Functional typeNames := by decide

theorem variant_names : ∀ e, e ∈ variantTable ++ structTable ↔ e ∈ variantNames := by
  intro e
  simp only [variantTable, structTable, variantNames, List.mem_append, List.mem_cons, List.not_mem_nil, or_false]
  constructor
  · rintro (h | h | h | h | h | h) <;> simp [h]
  · rintro (h | h | h | h | h | h) <;> simp [h]

theorem struct_names : ∀ e, e ∈ settingTable ++ structTable ↔ e ∈ typeNames := by
  intro e
  simp only [settingTable, structTable, typeNames, List.mem_append, List.mem_cons, List.not_mem_nil, or_false]
  constructor
  · rintro ((h | h | h | h | h | h | h | h) | h | h | h | h | h) <;> simp [h]
  · rintro (h | h | h | h | h | h | h | h | h | h) <;> simp [h]

theorem enum_names : ∀ e, e ∈ settingTable ++ enumTable ↔ e ∈ typeNames := by
  intro e
  simp only [settingTable, enumTable, typeNames, List.mem_append, List.mem_cons, List.not_mem_nil, or_false]
  constructor
  · rintro ((h | h | h | h | h | h | h | h) | h | h) <;> simp [h]
  · rintro (h | h | h | h | h | h | h | h | h | h) <;> simp [h]

/-- What the second stage reserves. -/
theorem reserved_twice {A B : Table} (hB : B.Functional) (hA : A.kind? "reserved_tags" = none) (hn : ("reserved_tags", .intList) ∈ B)
    (ho : ∀ e ∈ B, e.2 = .intList → e.1 = "reserved_tags") (attrs : List RawAttr) (t : U32) :
    t ∈ (parseAttrs B true (parseRaw A false attrs).unknown []).reserved ↔ Reserves attrs t := by
  rw [reserved_of hB true _ hn ho]
  unfold Reserves
  rw [← rawItems_eq]
  refine exists_congr fun is => and_congr_left fun _ => ?_
  exact mem_unknown (rawItems attrs) false _ hA

theorem parseStruct_iff (s : Setting) (p : ParsedAttrs) (fs : List FieldDecl) (st : PStruct) :
    parseStruct s p fs = ([], some st) ↔
      p.errors = [] ∧ parseFields s p.reserved fs = ([], some st.fields) ∧ st.cached = (s.hasSizeCache && !p.flag "no_size_cache") := by
  unfold parseStruct
  cases hf : parseFields s p.reserved fs with
  | mk errs o =>
    obtain ⟨c, fields⟩ := st
    simp only [Prod.mk.injEq, List.append_eq_nil_iff, Option.map_eq_some_iff, PStruct.mk.injEq]
    constructor
    · rintro ⟨⟨h1, h2⟩, _, h3, h4, rfl⟩; exact ⟨h1, ⟨h2, h3⟩, h4.symm⟩
    · rintro ⟨h1, ⟨h2, h3⟩, h4⟩; exact ⟨⟨h1, h2⟩, _, h3, h4.symm, rfl⟩

theorem parseStruct_ok {s : Setting} {p : ParsedAttrs} {fs : List FieldDecl} :
    (parseStruct s p fs).1 = [] ↔ p.errors = [] ∧ (parseFields s p.reserved fs).1 = [] := by
  unfold parseStruct
  simp

theorem parseStruct_some {s : Setting} {p : ParsedAttrs} {fs : List FieldDecl} (h : (parseStruct s p fs).1 = []) :
    ∃ st, parseStruct s p fs = ([], some st) := by
  obtain ⟨h1, h2⟩ := parseStruct_ok.1 h
  obtain ⟨ps, h3⟩ := parseFields_ok h2
  exact ⟨⟨_, ps⟩, (parseStruct_iff _ _ _ _).2 ⟨h1, h3, rfl⟩⟩

/-- A variant parsed without error. -/
def Variant1 (s : Setting) (v : VariantDecl) (p : PVariant) : Prop :=
  ∃ attrs, parseVariant v = ([], some (p.tag, attrs)) ∧
    parseStruct s (parseAttrs structTable true attrs []) v.fields = ([], some p.struct)

theorem parseVariant_none {v : VariantDecl} {errs} (h : parseVariant v = (errs, none)) : errs ≠ [] := by
  unfold parseVariant at h
  simp only at h
  split at h
  · cases h; simp
  · split at h <;> cases h
    simp

theorem parseVariant_some {v : VariantDecl} {t attrs} :
    parseVariant v = ([], some (t, attrs)) ↔ (parseRaw variantTable false v.attrs).errors = [] ∧ HasTag v.attrs t ∧ t.toNat < 2 ^ 29 ∧
      attrs = (parseRaw variantTable false v.attrs).unknown := by
  have hint : (parseRaw variantTable false v.attrs).errors = [] → ∀ t,
      (parseRaw variantTable false v.attrs).int? "tag" = some t ↔ HasTag v.attrs t := by
    intro h t
    have h' : (parseAttrs variantTable false (rawItems v.attrs) []).errors = [] := (List.append_eq_nil_iff.1 h).2
    unfold HasTag
    rw [← rawItems_eq]
    exact int_of variantTable_fn h' (by decide) t
  unfold parseVariant
  simp only
  constructor
  · intro h
    split at h
    · simp at h
    · rename_i t' ht
      split at h
      · simp at h
      · rename_i hle
        simp only [Prod.mk.injEq, Option.some.injEq] at h
        obtain ⟨he, rfl, ha⟩ := h
        exact ⟨he, (hint he _).1 ht, (tag_le _).1 hle, ha.symm⟩
  · rintro ⟨he, ht, hle, rfl⟩
    rw [(hint he _).2 ht]
    simp only
    rw [if_neg ((tag_le _).2 hle), he]

theorem variantsLoop_iff (s : Setting) (R : List U32) : ∀ (vs : List VariantDecl) (tags : List U32) (ps : List PVariant),
    parseVariantsLoop s R vs tags = ([], true, ps) ↔
      All₂ (Variant1 s) vs ps ∧ (ps.map (·.tag)).Nodup ∧ ∀ p ∈ ps, p.tag ∉ R ∧ p.tag ∉ tags
  | [], tags, ps => by
    simp only [parseVariantsLoop, Prod.mk.injEq, true_and]
    constructor
    · rintro rfl; exact ⟨.nil, by simp, by simp⟩
    · rintro ⟨h, _⟩; cases h; rfl
  | v :: vs, tags, ps => by
    unfold parseVariantsLoop
    cases hv : parseVariant v with
    | mk errs o =>
      cases o with
      | none =>
        have hne := parseVariant_none hv
        simp only [Prod.mk.injEq, List.append_eq_nil_iff]
        constructor
        · intro h; exact absurd h.1.1 hne
        · rintro ⟨h, _⟩
          cases h with
          | cons h _ =>
            obtain ⟨_, h, _⟩ := h
            rw [hv] at h; cases h
      | some ta =>
        obtain ⟨t, attrs⟩ := ta
        have ih := variantsLoop_iff s R vs (t :: tags)
        simp only [Prod.mk.injEq, List.append_eq_nil_iff, tagErrors_nil, Bool.and_eq_true, decide_eq_true_eq]
        constructor
        · rintro ⟨⟨⟨⟨rfl, h1, h2⟩, h0⟩, h3⟩, ⟨h4, _⟩, h5⟩
          have ih' := (ih (parseVariantsLoop s R vs (t :: tags)).2.2).1 (by rw [← h3, ← h4])
          obtain ⟨st, hst⟩ := parseStruct_some h0
          rw [hst] at h5
          rw [← h5]
          obtain ⟨a, b, c⟩ := ih'
          refine ⟨.cons ⟨attrs, hv, hst⟩ a, ?_, ?_⟩
          · show (t :: List.map _ _).Nodup
            rw [List.nodup_cons]
            refine ⟨?_, b⟩
            intro hm
            obtain ⟨q, hq, hqt⟩ := List.mem_map.1 hm
            exact (c q hq).2 (hqt ▸ List.mem_cons_self)
          · intro q hq
            cases hq with
            | head => exact ⟨h1, h2⟩
            | tail _ hq => exact ⟨(c q hq).1, fun h => (c q hq).2 (List.mem_cons_of_mem _ h)⟩
        · rintro ⟨a, b, c⟩
          cases a with
          | cons h a =>
            rename_i p ps'
            obtain ⟨attrs', h, hst⟩ := h
            rw [hv] at h
            cases h
            rw [List.map_cons, List.nodup_cons] at b
            have := (ih _).2 ⟨a, b.2, fun q hq => ⟨(c q (List.mem_cons_of_mem _ hq)).1, ?_⟩⟩
            · rw [this, hst]
              exact ⟨⟨⟨⟨rfl, c _ List.mem_cons_self⟩, rfl⟩, rfl⟩, ⟨rfl, (c _ List.mem_cons_self).2⟩, rfl⟩
            · rw [List.mem_cons, not_or]
              refine ⟨?_, (c q (List.mem_cons_of_mem _ hq)).2⟩
              intro he
              exact b.1 (he ▸ List.mem_map.2 ⟨q, hq, rfl⟩)

theorem variantsLoop_ok (s : Setting) (R : List U32) : ∀ (vs : List VariantDecl) (tags : List U32),
    (parseVariantsLoop s R vs tags).1 = [] → (parseVariantsLoop s R vs tags).2.1 = true
  | [], tags => fun _ => rfl
  | v :: vs, tags => by
    unfold parseVariantsLoop
    cases hv : parseVariant v with
    | mk errs o =>
      cases o with
      | none =>
        have hne := parseVariant_none hv
        simp only [List.append_eq_nil_iff]
        intro h; exact absurd h.1 hne
      | some p =>
        simp only [List.append_eq_nil_iff, tagErrors_nil, Bool.and_eq_true, decide_eq_true_eq]
        rintro ⟨⟨⟨_, _, h2⟩, _⟩, h3⟩
        exact ⟨variantsLoop_ok s R vs _ h3, h2⟩

theorem parseVariants_iff (s : Setting) (R : List U32) (vs : List VariantDecl) (ps : List PVariant) :
    parseVariants s R vs = ([], some ps) ↔
      All₂ (Variant1 s) vs ps ∧ (ps.map (·.tag)).Nodup ∧ (∀ p ∈ ps, p.tag ∉ R) ∧ ∃ p ∈ ps, p.tag = 0#32 := by
  have h := variantsLoop_iff s R vs [] ps
  have hd : ∀ ps : List PVariant, (if (ps.find? fun v => v.tag == 0#32).isNone then [DErr.noDefaultVariant] else []) = [] ↔
      ∃ p ∈ ps, p.tag = 0#32 := by
    intro ps
    split
    · rename_i hn
      rw [Option.isNone_iff_eq_none, List.find?_eq_none] at hn
      simp only [List.cons_ne_nil, false_iff]
      rintro ⟨p, hp, ht⟩
      exact hn p hp (by simp [ht])
    · rename_i hn
      rw [Option.isNone_iff_eq_none, List.find?_eq_none] at hn
      simp only [true_iff]
      obtain ⟨p, hp⟩ := Classical.not_forall.1 hn
      obtain ⟨hm, ht⟩ := Classical.not_imp.1 hp
      exact ⟨p, hm, by simpa using ht⟩
  simp only [List.not_mem_nil, not_false_eq_true, and_true] at h
  rw [← and_assoc, ← and_assoc, and_assoc (a := All₂ _ _ _), ← h]
  unfold parseVariants
  simp only [Prod.mk.injEq, List.append_eq_nil_iff, hd]
  constructor
  · rintro ⟨⟨h1, h0⟩, h2⟩
    split at h2
    · rename_i h3
      cases h2
      exact ⟨Prod.ext h1 (Prod.ext h3.2 rfl), h0⟩
    · cases h2
  · rintro ⟨hl, h0⟩
    have := All₂.length (h.1 hl).1
    rw [hl]
    simpa [this] using h0

theorem parseVariants_ok {s : Setting} {R : List U32} {vs : List VariantDecl} (h : (parseVariants s R vs).1 = []) :
    ∃ ps, parseVariants s R vs = ([], some ps) := by
  have h' : (parseVariantsLoop s R vs []).1 = [] := (List.append_eq_nil_iff.1 h).1
  have h2 := variantsLoop_ok s R vs [] h'
  have h3 := (variantsLoop_iff s R vs [] (parseVariantsLoop s R vs []).2.2).1 (Prod.ext h' (Prod.ext h2 rfl))
  refine ⟨(parseVariantsLoop s R vs []).2.2, Prod.ext h ?_⟩
  show (if _ then _ else _) = _
  rw [if_pos ⟨All₂.length h3.1, h2⟩]

theorem variant1_ok (s : Setting) (wantsMeta : Prop) (hm : s.deriveMeta = true ↔ wantsMeta) (v : VariantDecl) :
    (∃ p, Variant1 s v p) ↔ VariantOk wantsMeta v := by
  have hr := raw_twice variantTable_fn structTable_fn (by decide) variantNames_fn variant_names v.attrs
  have hres := reserved_twice (A := variantTable) structTable_fn (by decide) (by decide) (by decide) v.attrs
  constructor
  · rintro ⟨p, attrs, h1, h2⟩
    obtain ⟨a, b, c, rfl⟩ := parseVariant_some.1 h1
    have h3 := parseStruct_ok.1 (congrArg (·.1) h2)
    exact ⟨hr.1 ⟨a, h3.1⟩, ⟨_, b, c⟩, (fields_ok_iff s wantsMeta hm v.attrs _ hres v.fields).1 h3.2⟩
  · rintro ⟨a, ⟨t, ht, hle⟩, c⟩
    obtain ⟨h1, h2⟩ := hr.2 a
    obtain ⟨st, hst⟩ := parseStruct_some (parseStruct_ok.2 ⟨h2, (fields_ok_iff s wantsMeta hm v.attrs _ hres v.fields).2 c⟩)
    exact ⟨⟨t, st⟩, _, parseVariant_some.2 ⟨h1, ht, hle, rfl⟩, hst⟩

theorem parsed_fields {s : Setting} {R : List U32} {fs : List FieldDecl} {ps : List PField}
    (h : parseFields s R fs = ([], some ps)) : All₂ FieldIs fs ps :=
  ((parseFields_iff s R fs ps).1 h).1.imp fun f p hp => ((parseField_some s f p).1 hp).2.2.2

theorem variant1_is {s : Setting} {wantsCache : Prop} (hc : s.hasSizeCache = true ↔ wantsCache) {v : VariantDecl} {p : PVariant}
    (h : Variant1 s v p) : VariantIs wantsCache v p := by
  obtain ⟨attrs, h1, h2⟩ := h
  obtain ⟨a, b, c, rfl⟩ := parseVariant_some.1 h1
  obtain ⟨h3, h4, h5⟩ := (parseStruct_iff _ _ _ _).1 h2
  refine ⟨b, ?_, parsed_fields h4⟩
  rw [h5, Bool.and_eq_true, hc, Bool.not_eq_true', ← Bool.not_eq_true, flag_of structTable_fn h3 (by decide)]
  refine and_congr_right fun _ => not_congr ?_
  unfold HasFlag
  rw [← rawItems_eq]
  exact or_congr (mem_unknown (rawItems v.attrs) false (.path _) (by decide))
    (mem_unknown (rawItems v.attrs) false (.nameValue _ _) (by decide))

theorem variants_ok_iff (s : Setting) (wantsMeta : Prop) (hm : s.deriveMeta = true ↔ wantsMeta) (attrs : List RawAttr) (R : List U32)
    (hR : ∀ t, t ∈ R ↔ Reserves attrs t) (vs : List VariantDecl) :
    (parseVariants s R vs).1 = [] ↔ VariantsOk wantsMeta attrs vs := by
  have uniq : ∀ (v : VariantDecl) (p : PVariant), Variant1 s v p → ∀ t, HasTag v.attrs t ↔ t = p.tag := by
    intro v p h t
    have hv := (variant1_ok s wantsMeta hm v).1 ⟨p, h⟩
    have hp : HasTag v.attrs p.tag := by
      obtain ⟨attrs, h1, h2⟩ := h
      exact (parseVariant_some.1 h1).2.1
    exact ⟨fun ht => hasTag_unique (by decide) variantNames_fn hv.attrs ht hp, fun ht => ht ▸ hp⟩
  have pw : ∀ {ps : List PVariant}, All₂ (Variant1 s) vs ps →
      ((vs.Pairwise fun f g => ∀ t, HasTag f.attrs t → ¬ HasTag g.attrs t) ↔ (ps.map (·.tag)).Nodup) := by
    intro ps h
    rw [List.Nodup, List.pairwise_map]
    refine All₂.pairwise ?_ h
    intro f p g q hf hg
    constructor
    · intro hh he
      exact hh p.tag ((uniq f p hf _).2 rfl) ((uniq g q hg _).2 he)
    · intro hh t ht ht'
      exact hh (((uniq f p hf _).1 ht).symm.trans ((uniq g q hg _).1 ht'))
  constructor
  · intro h
    obtain ⟨ps, h⟩ := parseVariants_ok h
    obtain ⟨h1, h2, h3, q, hq, hq0⟩ := (parseVariants_iff s R vs ps).1 h
    refine ⟨fun f hf => ?_, (pw h1).2 h2, fun f hf t ht => ?_, ?_⟩
    · obtain ⟨p, _, hp⟩ := h1.left f hf
      exact (variant1_ok s wantsMeta hm f).1 ⟨p, hp⟩
    · obtain ⟨p, hp, hfp⟩ := h1.left f hf
      rw [(uniq f p hfp t).1 ht, ← hR]
      exact h3 p hp
    · obtain ⟨f, hf, hfq⟩ := h1.right q hq
      exact ⟨f, hf, (uniq f q hfq _).2 hq0.symm⟩
  · rintro ⟨h1, h2, h3, f, hf, hf0⟩
    obtain ⟨ps, hps⟩ := All₂.choose fun v hv => (variant1_ok s wantsMeta hm v).2 (h1 v hv)
    have := (parseVariants_iff s R vs ps).2 ⟨hps, (pw hps).1 h2, fun p hp => ?_, ?_⟩
    · rw [this]
    · obtain ⟨f, hf, hfp⟩ := hps.right p hp
      rw [hR]
      exact h3 f hf _ ((uniq f p hfp _).2 rfl)
    · obtain ⟨p, hp, hfp⟩ := hps.left f hf
      exact ⟨p, hp, ((uniq f p hfp _).1 hf0).symm⟩

/-! ## Arguments and settings -/

theorem args_ok (args : List Nested) :
    (parseAttrs argTable false args []).errors = [] ↔
      ∀ name ∈ ["Serialize", "Deserialize", "State", "PartialEq", "Default", "Hash"],
        (args.filter fun i => match i with | .attr (.path n) => n == name | _ => false).length ≤ 1 := by
  have hset : ∀ i, setOf argTable i = match i with
      | .attr (.path n) => if n ∈ ["Serialize", "Deserialize", "State", "PartialEq", "Default", "Hash"] then some (n, .bool true) else none
      | _ => none := by
    intro i
    apply Option.ext
    rintro ⟨n, v⟩
    rw [setOf_iff argTable_fn]
    constructor
    · rintro ⟨m, k, rfl, rfl, hk, hp⟩
      have hkp : k = .pathOnly := by
        simp only [argTable, List.mem_cons, List.not_mem_nil, or_false, Prod.mk.injEq] at hk
        rcases hk with h | h | h | h | h | h <;> exact h.2
      subst hkp
      cases m with
      | path n =>
        cases hp
        have : n ∈ ["Serialize", "Deserialize", "State", "PartialEq", "Default", "Hash"] := by
          have := List.mem_map_of_mem (f := (·.1)) hk
          exact this
        simp only [if_pos this]; rfl
      | _ => cases hp
    · intro h
      cases i with
      | lit l => cases h
      | attr m =>
        cases m with
        | path n' =>
          simp only at h
          split at h
          · rename_i hm
            cases h
            refine ⟨_, .pathOnly, rfl, rfl, ?_, rfl⟩
            simp only [List.mem_cons, List.not_mem_nil, or_false] at hm
            rcases hm with h | h | h | h | h | h <;> subst h <;> decide
          · cases h
        | _ => cases h
  have hok : ∀ i, itemOk argTable false i := by
    intro i
    unfold itemOk
    cases i with
    | lit l => rfl
    | attr m =>
      simp only [outcome]
      cases hk' : argTable.kind? m.name with
      | none => trivial
      | some k =>
        have hk := (kind_iff argTable_fn _ _).1 hk'
        clear hk'
        have hkp : k = .pathOnly := by
          simp only [argTable, List.mem_cons, List.not_mem_nil, or_false, Prod.mk.injEq] at hk
          rcases hk with h | h | h | h | h | h <;> exact h.2
        subst hkp
        cases m <;> simp [Kind.parse]
  have hcount : ∀ name, List.count name ((args.filterMap (setOf argTable)).map (·.1)) =
      if name ∈ ["Serialize", "Deserialize", "State", "PartialEq", "Default", "Hash"] then
        (args.filter fun i => match i with | .attr (.path n) => n == name | _ => false).length else 0 := by
    intro name
    induction args with
    | nil => simp
    | cons i args ih =>
      rw [List.filterMap_cons, List.filter_cons, hset i]
      cases i with
      | lit l => simpa using ih
      | attr m =>
        cases m with
        | path n =>
          simp only
          by_cases hn : n ∈ ["Serialize", "Deserialize", "State", "PartialEq", "Default", "Hash"]
          · rw [if_pos hn]
            simp only [List.map_cons, List.count_cons, ih]
            by_cases he : n = name
            · subst he
              simp only [beq_self_eq_true, if_true, List.length_cons, if_pos hn]
            · have : (n == name) = false := by simpa using he
              simp [this]
          · rw [if_neg hn]
            by_cases he : n = name
            · subst he
              simp only [ih, if_neg hn]
            · have : (n == name) = false := by simpa using he
              simp only [ih, this, Bool.false_eq_true, if_false]
        | _ => simpa using ih
  rw [parseAttrs_ok, List.nodup_iff_count]
  constructor
  · rintro ⟨_, h, _⟩ name hname
    have := h name
    rw [hcount, if_pos hname] at this
    exact this
  · intro h
    refine ⟨fun i _ => hok i, fun name => ?_, by simp⟩
    rw [hcount]
    split
    · rename_i hn; exact h name hn
    · exact Nat.zero_le _

theorem setting_spec {input : Input} (h1 : (parseAttrs argTable false input.args []).errors = [])
    (h2 : (parseRaw settingTable false input.attrs).errors = []) :
    let s := settingOf (parseAttrs argTable false input.args []) (parseRaw settingTable false input.attrs)
    (s.deriveState = true ↔ HasArg input.args "State") ∧ (s.deriveMeta = true ↔ WantsMeta input) ∧
      (s.hasSizeCache = true ↔ WantsCache input) := by
  have a : ∀ n, (n, .pathOnly) ∈ argTable → ((parseAttrs argTable false input.args []).flag n = true ↔ HasArg input.args n) :=
    fun n hn => path_of argTable_fn h1 hn
  have h2' : (parseAttrs settingTable false (rawItems input.attrs) []).errors = [] := (List.append_eq_nil_iff.1 h2).2
  have b : ∀ n, (n, .flag) ∈ settingTable → ((parseRaw settingTable false input.attrs).flag n = true ↔ HasFlag input.attrs n) := by
    intro n hn
    unfold HasFlag
    rw [← rawItems_eq]
    exact flag_of settingTable_fn h2' hn
  refine ⟨a _ (by decide), ?_, ?_⟩
  · simp only [settingOf, Bool.and_eq_true, Bool.or_eq_true, Bool.not_eq_true', ← Bool.not_eq_true]
    rw [a _ (by decide), a _ (by decide), b _ (by decide)]
    rfl
  · simp only [settingOf, Bool.and_eq_true, Bool.or_eq_true, Bool.not_eq_true', ← Bool.not_eq_true]
    rw [a _ (by decide), a _ (by decide), b _ (by decide)]
    rfl

end Steit.Derive
