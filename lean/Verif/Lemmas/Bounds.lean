import Verif.Model.Bounds

/-!
# Traits of generic messages: lemmas for C75
-/

namespace Steit.Bounds

variable {D : Type} {P : D → Decl D} {env env' : Env}

/-! ## Supertraits -/

theorem closure_refl (t : Trait) : t ∈ t.closure := by cases t <;> decide

theorem closure_trans {a b c : Trait} (h : b ∈ a.closure) (h' : c ∈ b.closure) : c ∈ a.closure := by
  cases a <;> cases b <;> simp [Trait.closure] at h <;> cases c <;> simp [Trait.closure] at h' ⊢

theorem closure_cases {a c : Trait} (h : c ∈ a.closure) : c = a ∨ ∃ b ∈ a.supers, c ∈ b.closure := by
  cases a <;> cases c <;> simp [Trait.closure, Trait.supers] at h ⊢

theorem closure_super {a b c : Trait} (h : b ∈ a.supers) (h' : c ∈ b.closure) : c ∈ a.closure := by
  cases a <;> cases b <;> simp [Trait.supers] at h <;> cases c <;> simp [Trait.closure] at h' ⊢

/-! ## Lists of types -/

theorem Exps.get?_ofList (l : List (Exp D)) (j : Nat) : (Exps.ofList l).get? j = l[j]? := by
  induction l generalizing j with
  | nil => rfl
  | cons t ts ih => cases j with
    | zero => rfl
    | succ j => simpa [Exps.ofList, Exps.get?] using ih j

theorem Exps.length_ofList (l : List (Exp D)) : (Exps.ofList l).length = l.length := by
  induction l with
  | nil => rfl
  | cons t ts ih => simp [Exps.ofList, Exps.length, ih]

theorem Exps.get?_some_of_lt : ∀ {ts : Exps D} {j : Nat}, j < ts.length → ∃ a, ts.get? j = some a
  | .nil, _, h => absurd h (by simp [Exps.length])
  | .cons t _, 0, _ => ⟨t, rfl⟩
  | .cons _ ts, j + 1, h => Exps.get?_some_of_lt (ts := ts) (by simpa [Exps.length] using h)

theorem Exps.lt_of_get? : ∀ {ts : Exps D} {j : Nat} {a : Exp D}, ts.get? j = some a → j < ts.length
  | .nil, _, _, h => by cases h
  | .cons _ _, 0, _, _ => by simp [Exps.length]
  | .cons _ ts, j + 1, _, h => by
    have := Exps.lt_of_get? (ts := ts) h
    simpa [Exps.length] using this

/-! ## Parameters -/

/-- What is known about the parameter at a position. -/
theorem mem_env {s : Decl D} {bounds : List Trait} {p : String} {bs : List Trait} :
    (p, bs) ∈ s.env bounds ↔ ∃ (j : Nat) (ds : List Trait), s.params[j]? = some (p, ds) ∧ bs = ds ++ bounds := by
  simp only [Decl.env, List.mem_map, Prod.mk.injEq, Prod.exists]
  constructor
  · rintro ⟨q, ds, hm, rfl, rfl⟩
    obtain ⟨j, hj⟩ := List.mem_iff_getElem?.1 hm
    exact ⟨j, ds, hj, rfl⟩
  · rintro ⟨j, ds, hj, rfl⟩
    exact ⟨p, ds, List.mem_of_getElem? hj, rfl, rfl⟩

theorem params_inj {s : Decl D} (hn : (s.params.map (·.1)).Nodup) {i j : Nat} {p : String} {ds ds' : List Trait}
    (hi : s.params[i]? = some (p, ds)) (hj : s.params[j]? = some (p, ds')) : i = j ∧ ds = ds' := by
  have hi' : (s.params.map (·.1))[i]? = some p := by simp [hi]
  have hj' : (s.params.map (·.1))[j]? = some p := by simp [hj]
  obtain ⟨hil, hie⟩ := List.getElem?_eq_some_iff.1 hi'
  obtain ⟨hjl, hje⟩ := List.getElem?_eq_some_iff.1 hj'
  have hij : i = j := (List.getElem_inj hn).1 (hie.trans hje.symm)
  subst hij
  rw [hi] at hj
  cases hj
  exact ⟨rfl, rfl⟩

theorem holds_param {tr : Trait} {p : String} :
    Holds P env tr (.param p) ↔ ∃ bs b, (p, bs) ∈ env ∧ b ∈ bs ∧ tr ∈ b.closure := by
  constructor
  · intro h
    cases h with
    | bound h1 h2 h3 => exact ⟨_, _, h1, h2, h3⟩
  · rintro ⟨bs, b, h1, h2, h3⟩
    exact .bound h1 h2 h3

theorem holds_app {tr : Trait} {c : Con D} {args : Exps D} :
    Holds P env tr (.app c args) ↔ ∃ asks, c.asks P tr = some asks ∧ args.length = c.arity P ∧
      ∀ j a, args.get? j = some a → ∀ b ∈ asks j, Holds P env b a := by
  constructor
  · intro h
    cases h with
    | impl h1 h2 h3 => exact ⟨_, h1, h2, h3⟩
  · rintro ⟨asks, h1, h2, h3⟩
    exact .impl h1 h2 h3

/-- What is known about a parameter of a declaration. -/
theorem holds_own {d : D} (hn : ((P d).params.map (·.1)).Nodup) {j : Nat} {p : String} {ds bounds : List Trait}
    (hj : (P d).params[j]? = some (p, ds)) {tr : Trait} :
    Holds P ((P d).env bounds) tr (.param p) ↔ ∃ b ∈ ds ++ bounds, tr ∈ b.closure := by
  rw [holds_param]
  constructor
  · rintro ⟨bs, b, h1, h2, h3⟩
    obtain ⟨i, ds', hi, rfl⟩ := mem_env.1 h1
    obtain ⟨rfl, rfl⟩ := params_inj hn hi hj
    exact ⟨b, h2, h3⟩
  · rintro ⟨b, h2, h3⟩
    exact ⟨_, b, mem_env.2 ⟨j, ds, hj, rfl⟩, h2, h3⟩

/-! ## Blocks -/

theorem find?_ite {α : Type} (c : Bool) (b : α) (p : α → Bool) :
    (if c = true then [b] else []).find? p = if c = true ∧ p b = true then some b else none := by
  cases c <;> by_cases h : p b = true <;> simp [h]

/-- The block of a trait. -/
def Decl.block (d : D) (s : Decl D) : Trait → Option (Block D)
  | .default => if s.request.hasDefault then some s.default else none
  | .partialEq => if s.request.partialEq then some s.partialEq else none
  | .eq => if s.request.eq then some s.eq else none
  | .hash => if s.request.hash then some s.hash else none
  | .wireType => if s.request.hasWireType then some Decl.wireType else none
  | .serialize => if s.request.hasSerialize then some s.serialize else none
  | .deserialize => if s.request.hasDeserialize then some (s.deserialize d) else none
  | .state => if s.request.state then some s.state else none
  | .hasMeta => if s.request.hasMeta then some s.meta else none
  | .mapKey => none

theorem setters_of (d : D) (s : Decl D) : (s.setters d).of = none := by
  simp only [Decl.setters]; cases s.body <;> rfl

theorem deserialize_of (d : D) (s : Decl D) : (s.deserialize d).of = some .deserialize := by
  unfold Decl.deserialize; split <;> rfl

theorem find_block (d : D) (s : Decl D) (tr : Trait) : ((s.blocks d).find? fun b => b.of = some tr) = s.block d tr := by
  simp only [Decl.blocks, List.find?_append, find?_ite, decide_eq_true_eq, setters_of, deserialize_of, Decl.ctors, Decl.partialEq, Decl.default, Decl.hash,
    Decl.wireType, Decl.serialize, Decl.state, Decl.meta, Decl.eq]
  cases tr <;> simp [Decl.block, Decl.partialEq, Decl.default, Decl.hash, Decl.wireType, Decl.serialize, Decl.state, Decl.meta, Decl.eq]

theorem mem_blocks {d : D} {s : Decl D} {b : Block D} : b ∈ s.blocks d ↔ (s.request.hasCtors = true ∧ b = s.ctors) ∨
    (s.request.hasSetters = true ∧ b = s.setters d) ∨ ∃ tr, s.block d tr = some b := by
  have hite : ∀ (c : Bool) (x : Block D), b ∈ (if c = true then [x] else []) ↔ c = true ∧ b = x := by
    intro c x; cases c <;> simp
  have hite' : ∀ (c : Bool) (x : Block D), (if c = true then some x else none) = some b ↔ c = true ∧ b = x := by
    intro c x; cases c <;> simp [eq_comm]
  simp only [Decl.blocks, List.mem_append, hite]
  constructor
  · rintro ((((((((((h | h) | h) | h) | h) | h) | h) | h) | h) | h) | h)
    · exact .inl h
    · exact .inr (.inl h)
    · exact .inr (.inr ⟨.partialEq, (hite' _ _).2 h⟩)
    · exact .inr (.inr ⟨.default, (hite' _ _).2 h⟩)
    · exact .inr (.inr ⟨.hash, (hite' _ _).2 h⟩)
    · exact .inr (.inr ⟨.wireType, (hite' _ _).2 h⟩)
    · exact .inr (.inr ⟨.serialize, (hite' _ _).2 h⟩)
    · exact .inr (.inr ⟨.deserialize, (hite' _ _).2 h⟩)
    · exact .inr (.inr ⟨.state, (hite' _ _).2 h⟩)
    · exact .inr (.inr ⟨.hasMeta, (hite' _ _).2 h⟩)
    · exact .inr (.inr ⟨.eq, (hite' _ _).2 h⟩)
  · rintro (h | h | ⟨tr, h⟩)
    · simp [h]
    · simp [h]
    · cases tr <;> simp only [Decl.block, hite', reduceCtorEq] at h <;> simp [h]

theorem block_of {d : D} {s : Decl D} {tr : Trait} {b : Block D} (h : s.block d tr = some b) : b.of = some tr := by
  have hite' : ∀ (c : Bool) (x : Block D), (if c = true then some x else none) = some b ↔ c = true ∧ b = x := by
    intro c x; cases c <;> simp [eq_comm]
  cases tr <;> simp only [Decl.block, hite', reduceCtorEq] at h <;> obtain ⟨_, rfl⟩ := h <;> first | rfl | exact deserialize_of _ _

/-- What the `impl` for a message asks of its arguments. -/
theorem asks_msg {d : D} {tr : Trait} : (Con.msg d).asks P tr = ((P d).block d tr).map fun b => (P d).bounds b.bounds := by
  simp only [Con.asks, find_block]

theorem asked {s : Decl D} {bounds : List Trait} {j : Nat} {p : String} {ds : List Trait} (hj : s.params[j]? = some (p, ds)) :
    s.bounds bounds j = ds ++ bounds := by
  simp [Decl.bounds, hj]

theorem not_asked {s : Decl D} {bounds : List Trait} {j : Nat} (hj : s.params[j]? = none) : s.bounds bounds j = [] := by
  simp [Decl.bounds, hj]

/-- A message has a trait, in terms of blocks. -/
theorem holds_msg {d : D} {tr : Trait} {args : Exps D} :
    Holds P env tr (.app (.msg d) args) ↔ ∃ b, (P d).block d tr = some b ∧ args.length = (P d).params.length ∧
      ∀ j a p ds, args.get? j = some a → (P d).params[j]? = some (p, ds) → ∀ t ∈ ds ++ b.bounds, Holds P env t a := by
  rw [holds_app, asks_msg]
  constructor
  · rintro ⟨asks, h1, h2, h3⟩
    obtain ⟨b, hb, rfl⟩ := Option.map_eq_some_iff.1 h1
    refine ⟨b, hb, h2, fun j a p ds ha hp t ht => h3 j a ha t ?_⟩
    rw [asked hp]
    exact ht
  · rintro ⟨b, hb, h2, h3⟩
    refine ⟨(P d).bounds b.bounds, by rw [hb]; rfl, h2, fun j a ha t ht => ?_⟩
    cases hp : (P d).params[j]? with
    | none => rw [not_asked hp] at ht; cases ht
    | some p =>
      obtain ⟨p, ds⟩ := p
      rw [asked hp] at ht
      exact h3 j a p ds ha hp t ht

/-- `Self` has a trait. -/
theorem holds_self {d : D} (hn : ((P d).params.map (·.1)).Nodup) {bounds : List Trait} {tr : Trait} :
    Holds P ((P d).env bounds) tr ((P d).self d) ↔ ∃ b, (P d).block d tr = some b ∧
      ∀ p ds, (p, ds) ∈ (P d).params → ∀ t ∈ ds ++ b.bounds, ∃ t' ∈ ds ++ bounds, t ∈ t'.closure := by
  unfold Decl.self
  rw [holds_msg]
  constructor
  · rintro ⟨b, hb, -, h⟩
    refine ⟨b, hb, fun p ds hp t ht => ?_⟩
    obtain ⟨j, hj⟩ := List.mem_iff_getElem?.1 hp
    have := h j (.param p) p ds (by simp [Exps.get?_ofList, hj]) hj t ht
    exact (holds_own hn hj).1 this
  · rintro ⟨b, hb, h⟩
    refine ⟨b, hb, by simp [Exps.length_ofList], fun j a p ds ha hp t ht => ?_⟩
    simp only [Exps.get?_ofList, List.getElem?_map, hp, Option.map_some, Option.some.injEq] at ha
    subst ha
    exact (holds_own hn hp).2 (h p ds (List.mem_of_getElem? hp) t ht)

/-! ## Types that implement a trait implement its supertraits -/

/-- The `impl`s of types other than messages. -/
theorem asks_super {c : Con D} (hc : ∀ d, c ≠ .msg d) {tr tr' : Trait} {asks : Nat → List Trait} (h : c.asks P tr = some asks)
    (h' : tr' ∈ tr.supers) : ∃ asks', c.asks P tr' = some asks' ∧ ∀ j, ∀ t ∈ asks' j, ∃ t' ∈ asks j, t ∈ t'.closure := by
  cases c with
  | msg d => exact absurd rfl (hc d)
  | prim p => cases p <;> cases tr <;> simp [Con.asks, Prim.has] at h <;> cases tr' <;> simp [Trait.supers] at h' <;>
      exact ⟨fun _ => [], rfl, fun _ _ h => by cases h⟩
  | array n =>
    cases tr <;> simp [Con.asks] at h <;> cases tr' <;> simp [Trait.supers] at h'
    all_goals first
      | (subst h; exact ⟨_, rfl, by simp [Trait.closure]⟩)
      | (obtain ⟨hn, rfl⟩ := h
         refine ⟨_, by simp [Con.asks, hn]; rfl, by simp [Trait.closure]⟩)
      | (obtain ⟨hn, rfl⟩ := h
         have : n ≤ 32 := by omega
         refine ⟨_, by simp [Con.asks, this]; rfl, by simp [Trait.closure]⟩)
  | tuple n =>
    cases tr <;> simp [Con.asks] at h <;> cases tr' <;> simp [Trait.supers] at h'
    all_goals first
      | (obtain ⟨hn, rfl⟩ := h
         refine ⟨_, by simp [Con.asks, hn]; rfl, by simp [Trait.closure]⟩)
      | (obtain ⟨hn, rfl⟩ := h
         have : n ≤ 12 := by omega
         refine ⟨_, by simp [Con.asks, this]; rfl, by simp [Trait.closure]⟩)
  | hashMap =>
    cases tr <;> simp [Con.asks] at h <;> cases tr' <;> simp [Trait.supers] at h' <;> subst h <;> refine ⟨_, rfl, fun j => ?_⟩ <;>
      by_cases hj : j = 0 <;> simp [hj, Trait.closure]
  | map =>
    cases tr <;> simp [Con.asks] at h <;> cases tr' <;> simp [Trait.supers] at h' <;> subst h <;> refine ⟨_, rfl, fun j => ?_⟩ <;>
      by_cases hj : j = 0 <;> simp [hj, Trait.closure]
  | _ =>
    cases tr <;> simp [Con.asks] at h <;> cases tr' <;> simp [Trait.supers] at h' <;> subst h <;>
      refine ⟨_, rfl, fun j => ?_⟩ <;> simp [Trait.closure]

/-- The `impl`s of messages. -/
theorem block_super {d : D} (hP : Compiles P d) {tr tr' : Trait} {b : Block D} (h : (P d).block d tr = some b)
    (h' : tr' ∈ tr.supers) : ∃ b', (P d).block d tr' = some b' ∧
      ∀ p ds, (p, ds) ∈ (P d).params → ∀ t ∈ ds ++ b'.bounds, ∃ t' ∈ ds ++ b.bounds, t ∈ t'.closure :=
  (holds_self hP.names).1 ((hP.blocks b (mem_blocks.2 (.inr (.inr ⟨tr, h⟩)))).supers tr (block_of h) tr' h')

theorem asks_super_any (hP : ∀ d, Compiles P d) {c : Con D} {tr tr' : Trait} {asks : Nat → List Trait} (h : c.asks P tr = some asks)
    (h' : tr' ∈ tr.supers) : ∃ asks', c.asks P tr' = some asks' ∧ ∀ j, ∀ t ∈ asks' j, ∃ t' ∈ asks j, t ∈ t'.closure := by
  cases c with
  | msg d =>
    rw [asks_msg] at h
    obtain ⟨b, hb, rfl⟩ := Option.map_eq_some_iff.1 h
    obtain ⟨b', hb', hs⟩ := block_super (hP d) hb h'
    refine ⟨(P d).bounds b'.bounds, by rw [asks_msg, hb']; rfl, fun j t ht => ?_⟩
    cases hp : (P d).params[j]? with
    | none => rw [not_asked hp] at ht; cases ht
    | some p =>
      obtain ⟨p, ds⟩ := p
      rw [asked hp] at ht ⊢
      exact hs p ds (List.mem_of_getElem? hp) t ht
  | _ => exact asks_super (fun d hd => by cases hd) h h'

/-- How far a trait is from having no supertraits. -/
def Trait.rank : Trait → Nat
  | .state => 2
  | .eq | .serialize | .deserialize => 1
  | _ => 0

theorem rank_super {a b : Trait} (h : b ∈ a.supers) : b.rank < a.rank := by
  cases a <;> cases b <;> simp [Trait.supers, Trait.rank] at h ⊢

theorem asks_closure (hP : ∀ d, Compiles P d) {c : Con D} : ∀ (n : Nat) {tr tr' : Trait} {asks : Nat → List Trait}, tr.rank ≤ n →
    c.asks P tr = some asks → tr' ∈ tr.closure →
    ∃ asks', c.asks P tr' = some asks' ∧ ∀ j, ∀ t ∈ asks' j, ∃ t' ∈ asks j, t ∈ t'.closure := by
  intro n
  induction n with
  | zero =>
    intro tr tr' asks hr h h'
    rcases closure_cases h' with rfl | ⟨s, hs, _⟩
    · exact ⟨asks, h, fun j t ht => ⟨t, ht, closure_refl t⟩⟩
    · have := rank_super hs
      omega
  | succ n ih =>
    intro tr tr' asks hr h h'
    rcases closure_cases h' with rfl | ⟨s, hs, hs'⟩
    · exact ⟨asks, h, fun j t ht => ⟨t, ht, closure_refl t⟩⟩
    · have := rank_super hs
      obtain ⟨asks₁, h1, h2⟩ := asks_super_any hP h hs
      obtain ⟨asks₂, h3, h4⟩ := ih (by omega) h1 hs'
      refine ⟨asks₂, h3, fun j t ht => ?_⟩
      obtain ⟨t₁, ht₁, hc₁⟩ := h4 j t ht
      obtain ⟨t₂, ht₂, hc₂⟩ := h2 j t₁ ht₁
      exact ⟨t₂, ht₂, closure_trans hc₂ hc₁⟩

/-- A type that implements a trait implements its supertraits. -/
theorem holds_closure (hP : ∀ d, Compiles P d) {tr : Trait} {t : Exp D} (h : Holds P env tr t) :
    ∀ tr' ∈ tr.closure, Holds P env tr' t := by
  induction h with
  | bound h1 h2 h3 => exact fun tr' h' => .bound h1 h2 (closure_trans h3 h')
  | impl h1 h2 _ ih =>
    intro tr' h'
    obtain ⟨asks', h3, h4⟩ := asks_closure hP _ (Nat.le_refl _) h1 h'
    refine .impl h3 h2 fun j a ha t ht => ?_
    obtain ⟨t', ht', hc⟩ := h4 j t ht
    exact ih j a ha t' ht' t hc

/-! ## Instances -/

mutual
/-- Types for parameters. -/
def Exp.subst (σ : String → Exp D) : Exp D → Exp D
  | .param p => σ p
  | .app c args => .app c (args.subst σ)

/-- See `Exp.subst`. -/
def Exps.subst (σ : String → Exp D) : Exps D → Exps D
  | .nil => .nil
  | .cons t ts => .cons (t.subst σ) (ts.subst σ)
end

theorem Exps.length_subst (σ : String → Exp D) : ∀ ts : Exps D, (ts.subst σ).length = ts.length
  | .nil => rfl
  | .cons _ ts => by simp [Exps.subst, Exps.length, Exps.length_subst σ ts]

theorem Exps.get?_subst (σ : String → Exp D) : ∀ (ts : Exps D) (j : Nat), (ts.subst σ).get? j = (ts.get? j).map (·.subst σ)
  | .nil, _ => rfl
  | .cons _ _, 0 => rfl
  | .cons _ ts, j + 1 => by simpa [Exps.subst, Exps.get?] using Exps.get?_subst σ ts j

/-- Types for parameters have what is known of the parameters. -/
def Fit (P : D → Decl D) (env env' : Env) (σ : String → Exp D) : Prop :=
  ∀ p bs, (p, bs) ∈ env → ∀ b ∈ bs, Holds P env' b (σ p)

theorem holds_subst (hP : ∀ d, Compiles P d) {σ : String → Exp D} (hσ : Fit P env env' σ) {tr : Trait} {t : Exp D}
    (h : Holds P env tr t) : Holds P env' tr (t.subst σ) := by
  induction h with
  | bound h1 h2 h3 => exact holds_closure hP (hσ _ _ h1 _ h2) _ h3
  | @impl tr c args asks h1 h2 _ ih =>
    refine .impl h1 (by rw [Exps.length_subst]; exact h2) fun j a ha t ht => ?_
    rw [Exps.get?_subst] at ha
    obtain ⟨a', ha', rfl⟩ := Option.map_eq_some_iff.1 ha
    exact ih j a' ha' t ht

theorem exists_subst (hP : ∀ d, Compiles P d) {σ : String → Exp D} (hσ : Fit P env env' σ)
    (hσ' : ∀ p bs, (p, bs) ∈ env → Exists P env' (σ p)) {t : Exp D} (h : Exists P env t) : Exists P env' (t.subst σ) := by
  induction h with
  | param h1 => exact hσ' _ _ h1
  | @app c args h1 h2 _ ih =>
    refine .app (by rw [Exps.length_subst]; exact h1) (fun j a ha b hb => ?_) (fun j a ha => ?_)
    · rw [Exps.get?_subst] at ha
      obtain ⟨a', ha', rfl⟩ := Option.map_eq_some_iff.1 ha
      exact holds_subst hP hσ (h2 j a' ha' b hb)
    · rw [Exps.get?_subst] at ha
      obtain ⟨a', ha', rfl⟩ := Option.map_eq_some_iff.1 ha
      exact ih j a' ha'

/-- The parameters of a declaration stand for arguments. -/
def bind : List (String × List Trait) → Exps D → String → Exp D
  | p :: ps, .cons t ts, q => if q = p.1 then t else bind ps ts q
  | _, _, q => .param q

theorem bind_get : ∀ {ps : List (String × List Trait)} {ts : Exps D} {j : Nat} {p : String} {ds : List Trait} {a : Exp D},
    (ps.map (·.1)).Nodup → ps[j]? = some (p, ds) → ts.get? j = some a → bind ps ts p = a
  | q :: ps, .cons t ts, 0, p, ds, a, _, hp, ha => by
    simp only [List.getElem?_cons_zero, Option.some.injEq] at hp
    cases ha
    simp [bind, hp]
  | q :: ps, .cons t ts, j + 1, p, ds, a, hn, hp, ha => by
    have hn' : q.1 ∉ ps.map (·.1) ∧ (ps.map (·.1)).Nodup := by simpa only [List.map_cons, List.nodup_cons] using hn
    have hp' : ps[j]? = some (p, ds) := by simpa using hp
    have hm : p ∈ ps.map (·.1) := List.mem_map.2 ⟨_, List.mem_of_getElem? hp', rfl⟩
    have hne : p ≠ q.1 := fun h => hn'.1 (h ▸ hm)
    simp only [bind, if_neg hne]
    exact bind_get hn'.2 hp' ha
  | [], _, _, _, _, _, _, hp, _ => by simp at hp
  | _ :: _, .nil, _, _, _, _, _, _, ha => by cases ha

/-- If an instance of a message implements a trait, its arguments fit the parameters in the block. -/
theorem fit_of_holds {d : D} (hn : ((P d).params.map (·.1)).Nodup) {tr : Trait} {args : Exps D} {b : Block D}
    (hb : (P d).block d tr = some b) (h : Holds P env tr (.app (.msg d) args)) :
    Fit P ((P d).env b.bounds) env (bind (P d).params args) := by
  obtain ⟨b', hb', hl, h'⟩ := holds_msg.1 h
  rw [hb] at hb'
  cases hb'
  intro p bs hp t ht
  obtain ⟨j, ds, hj, rfl⟩ := mem_env.1 hp
  obtain ⟨hjl, _⟩ := List.getElem?_eq_some_iff.1 hj
  obtain ⟨a, ha⟩ := Exps.get?_some_of_lt (ts := args) (j := j) (by omega)
  rw [bind_get hn hj ha]
  exact h' j a p ds ha hj t ht

theorem fit_of_exists {d : D} (hn : ((P d).params.map (·.1)).Nodup) {args : Exps D} (h : Exists P env (.app (.msg d) args)) :
    Fit P ((P d).env []) env (bind (P d).params args) ∧ ∀ p bs, (p, bs) ∈ (P d).env [] → Exists P env (bind (P d).params args p) := by
  cases h with
  | app hl h1 h2 =>
    have hl : args.length = (P d).params.length := hl
    refine ⟨fun p bs hp t ht => ?_, fun p bs hp => ?_⟩
    all_goals
      obtain ⟨j, ds, hj, rfl⟩ := mem_env.1 hp
      obtain ⟨hjl, _⟩ := List.getElem?_eq_some_iff.1 hj
      obtain ⟨a, ha⟩ := Exps.get?_some_of_lt (ts := args) (j := j) (by omega)
      rw [bind_get hn hj ha]
    · refine h1 j a ha t ?_
      simpa [Con.wants, Decl.bounds, hj] using ht
    · exact h2 j a ha

end Steit.Bounds
