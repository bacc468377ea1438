import Verif.Lemmas.BoundsExact

/-!
# Programs of states: lemmas for C75
-/

namespace Steit.Bounds

open Steit.Bounds.Spec

variable {D : Type} {P : D → Decl D} {env : Env} {ps : List String}

/-- The traits that all messages have. -/
def common : List Trait := [.default, .partialEq, .wireType, .serialize, .deserialize, .state, .hasMeta]

/-- All parameters have a trait. -/
def Known (env : Env) (ps : List String) (tr : Trait) : Prop := ∀ p ∈ ps, ∃ bs b, (p, bs) ∈ env ∧ b ∈ bs ∧ tr ∈ b.closure

theorem Known.closure {tr tr' : Trait} (h : Known env ps tr) (h' : tr' ∈ tr.closure) : Known env ps tr' := fun p hp => by
  obtain ⟨bs, b, h1, h2, h3⟩ := h p hp
  exact ⟨bs, b, h1, h2, closure_trans h3 h'⟩

/-- Blocks of messages ask for `State`, what comes with it, and the trait. -/
theorem plain_block (hP : Plain P) {d : D} {tr : Trait} (h : tr ∈ common) : ∃ b, (P d).block d tr = some b ∧
    ∀ t ∈ b.bounds, t ∈ common ∧ (t ∈ Trait.state.closure ∨ t = tr) := by
  have hs := hP.state d
  have hq := hP.partialEq d
  have hm := hP.noMeta d
  simp only [common, List.mem_cons, List.not_mem_nil, or_false] at h
  rcases h with rfl | rfl | rfl | rfl | rfl | rfl | rfl
  · exact ⟨(P d).default, by simp [Decl.block, Request.hasDefault, Request.hasDeserialize, hs],
      by simp [Decl.default, Request.traitBounds, hs, common, Trait.closure]⟩
  · exact ⟨(P d).partialEq, by simp [Decl.block, hq], by simp [Decl.partialEq, common]⟩
  · exact ⟨Decl.wireType, by simp [Decl.block, Request.hasWireType, Request.hasSerialize, hs], by simp [Decl.wireType]⟩
  · exact ⟨(P d).serialize, by simp [Decl.block, Request.hasSerialize, hs], by simp [Decl.serialize, common]⟩
  · refine ⟨(P d).deserialize d, by simp [Decl.block, Request.hasDeserialize, hs], ?_⟩
    cases hb : (P d).body <;> simp [Decl.deserialize, hb, Request.traitBounds, hs, common, Trait.closure]
  · exact ⟨(P d).state, by simp [Decl.block, hs], by simp [Decl.state, common]⟩
  · exact ⟨(P d).meta, by simp [Decl.block, Request.hasMeta, Request.hasDeserialize, hs, hm], by simp [Decl.meta, common]⟩

theorem common_of_state {t : Trait} (h : t ∈ Trait.state.closure) : t ∈ common := by cases t <;> simp [Trait.closure, common] at h ⊢

theorem holds_prim {k : Prim} {tr : Trait} (h : k.has tr = true) : Holds P env tr (.app (.prim k) .nil) :=
  .impl (asks := fun _ => []) (by simp [Con.asks, h]) rfl fun _ _ _ _ hb => by cases hb

/-- One argument. -/
theorem holds_one {c : Con D} {tr : Trait} {asks : Nat → List Trait} {t : Exp D} (ha : c.asks P tr = some asks) (hc : c.arity P = 1)
    (h : ∀ b ∈ asks 0, Holds P env b t) : Holds P env tr (.app c (.cons t .nil)) := by
  refine .impl ha (by simp [Exps.length, hc]) fun j a hj b hb => ?_
  cases j with
  | zero => cases hj; exact h b hb
  | succ j => simp [Exps.get?] at hj

theorem holds_two {c : Con D} {tr : Trait} {asks : Nat → List Trait} {t u : Exp D} (ha : c.asks P tr = some asks) (hc : c.arity P = 2)
    (h : ∀ b ∈ asks 0, Holds P env b t) (h' : ∀ b ∈ asks 1, Holds P env b u) : Holds P env tr (.app c (.cons t (.cons u .nil))) := by
  refine .impl ha (by simp [Exps.length, hc]) fun j a hj b hb => ?_
  cases j with
  | zero => cases hj; exact h b hb
  | succ j => cases j with
    | zero => cases hj; exact h' b hb
    | succ j => simp [Exps.get?] at hj

theorem exists_one {c : Con D} {t : Exp D} (hc : c.arity P = 1) (h : Exists P env t) (h' : ∀ b ∈ c.wants P 0, Holds P env b t) :
    Exists P env (.app c (.cons t .nil)) := by
  refine .app (by simp [Exps.length, hc]) (fun j a hj b hb => ?_) (fun j a hj => ?_)
  all_goals cases j with
  | zero => cases hj; first | exact h' b hb | exact h
  | succ j => simp [Exps.get?] at hj

theorem exists_two {c : Con D} {t u : Exp D} (hc : c.arity P = 2) (h : Exists P env t) (h' : ∀ b ∈ c.wants P 0, Holds P env b t)
    (hu : Exists P env u) (hu' : ∀ b ∈ c.wants P 1, Holds P env b u) : Exists P env (.app c (.cons t (.cons u .nil))) := by
  refine .app (by simp [Exps.length, hc]) (fun j a hj b hb => ?_) (fun j a hj => ?_)
  all_goals cases j with
  | zero => cases hj; first | exact h' b hb | exact h
  | succ j => cases j with
    | zero => cases hj; first | exact hu' b hb | exact hu
    | succ j => simp [Exps.get?] at hj

theorem exists_prim {k : Prim} : Exists P env (.app (.prim k) .nil) :=
  .app rfl (fun j a hj => by cases hj) (fun j a hj => by cases hj)

theorem key_has {k : Prim} (h : k ∈ [Prim.u8, .u16, .u32]) (tr : Trait) : k.has tr = true := by
  simp only [List.mem_cons, List.not_mem_nil, or_false] at h
  rcases h with rfl | rfl | rfl <;> cases tr <;> rfl

theorem number_has {p : Prim} (h1 : p ≠ .string) (h2 : p ≠ .bytes) {tr : Trait} (h : tr ∈ common) : p.has tr = true := by
  simp only [common, List.mem_cons, List.not_mem_nil, or_false] at h
  rcases h with rfl | rfl | rfl | rfl | rfl | rfl | rfl <;> cases p <;> first | rfl | exact absurd rfl h1 | exact absurd rfl h2

/-- States have what messages have. -/
theorem stateTy_holds (hP : Plain P) (hS : Known env ps .state) {t : Exp D} (ht : StateTy P ps t) :
    ∀ tr ∈ common, Known env ps tr → Holds P env tr t := by
  refine StateTy.rec (P := P) (ps := ps) (motive_1 := fun t _ => ∀ tr ∈ common, Known env ps tr → Holds P env tr t)
    (motive_2 := fun ts _ => ∀ j a, ts.get? j = some a → ∀ tr ∈ common, Known env ps tr → Holds P env tr a)
    ?_ ?_ ?_ ?_ ?_ ?_ ?_ ?_ ht
  · intro p hp tr _ hk
    obtain ⟨bs, b, h1, h2, h3⟩ := hk p hp
    exact .bound h1 h2 h3
  · intro p h1 h2 tr htr _
    exact holds_prim (number_has h1 h2 htr)
  · intro t _ ih tr htr hk
    refine holds_one (asks := fun _ => [tr]) ?_ rfl fun b hb => ?_
    · cases tr <;> simp [common] at htr <;> rfl
    · rcases List.mem_singleton.1 hb with rfl
      exact ih b htr hk
  · intro t _ ih tr htr hk
    have hst := ih .state (by decide) hS
    have htt := ih tr htr hk
    cases tr <;> simp [common] at htr <;> refine holds_one rfl rfl fun b hb => ?_ <;> simp at hb <;>
      first | (subst hb; exact hst) | (rcases hb with rfl | rfl <;> assumption)
  · intro k t hk' _ ih tr htr hk
    have hst := ih .state (by decide) hS
    have htt := ih tr htr hk
    cases tr <;> simp [common] at htr <;> refine holds_two rfl rfl (fun b _ => holds_prim (key_has hk' b)) fun b hb => ?_ <;> simp at hb <;>
      first | (subst hb; exact hst) | (rcases hb with rfl | rfl <;> assumption)
  · intro d args hl _ ih tr htr hk
    obtain ⟨b, hb, hbs⟩ := plain_block (d := d) hP htr
    refine holds_msg.2 ⟨b, hb, hl, fun j a p ds ha hp t ht => ?_⟩
    rw [show ds = [.state] from hP.bounds d _ (List.mem_of_getElem? hp)] at ht
    rcases List.mem_append.1 ht with ht | ht
    · rcases List.mem_singleton.1 ht with rfl
      exact ih j a ha .state (by decide) hS
    · obtain ⟨hc, hc' | rfl⟩ := hbs t ht
      · exact ih j a ha t hc (hS.closure hc')
      · exact ih j a ha t hc hk
  · intro j a h
    cases h
  · intro t ts _ _ ih1 ih2 j a ha
    cases j with
    | zero => cases ha; exact ih1
    | succ j => exact ih2 j a ha

theorem dataTy_holds (hP : Plain P) (hS : Known env ps .state) {t : Exp D} (ht : DataTy P ps t) :
    ∀ tr ∈ common, tr ≠ .state → Known env ps tr → Holds P env tr t := by
  induction ht with
  | state h => exact fun tr htr _ hk => stateTy_holds hP hS h tr htr hk
  | string => intro tr htr hne _; refine holds_prim ?_; cases tr <;> simp [common] at htr hne <;> rfl
  | bytes => intro tr htr hne _; refine holds_prim ?_; cases tr <;> simp [common] at htr hne <;> rfl
  | box _ ih =>
    intro tr htr hne hk
    have := ih tr htr hne hk
    cases tr <;> simp [common] at htr hne <;> refine holds_one rfl rfl fun b hb => ?_ <;> simp at hb <;> subst hb <;> exact this
  | vec _ ih =>
    intro tr htr hne hk
    have := ih tr htr hne hk
    cases tr <;> simp [common] at htr hne <;> refine holds_one rfl rfl fun b hb => ?_ <;> simp at hb <;> subst hb <;> exact this
  | option _ ih =>
    intro tr htr hne hk
    have := ih tr htr hne hk
    cases tr <;> simp [common] at htr hne <;> refine holds_one rfl rfl fun b hb => ?_ <;> simp at hb <;> subst hb <;> exact this
  | @array n t h1 h7 _ ih =>
    intro tr htr hne hk
    have := ih tr htr hne hk
    have h32 : n ≤ 32 := by omega
    cases tr <;> simp [common] at htr hne
    case wireType => exact holds_one (asks := fun _ => []) (by simp [Con.asks, h1, h7]) rfl fun b hb => by cases hb
    all_goals
      refine holds_one (by simp [Con.asks, h1, h7, h32]; rfl) rfl fun b hb => ?_
      rcases List.mem_singleton.1 hb with rfl
      exact this

theorem stateTy_exists (hP : Plain P) (hE : ∀ p ∈ ps, ∃ bs, (p, bs) ∈ env) (hS : Known env ps .state) {t : Exp D}
    (ht : StateTy P ps t) : Exists P env t := by
  refine StateTy.rec (P := P) (ps := ps) (motive_1 := fun t _ => Exists P env t)
    (motive_2 := fun ts _ => ∀ j a, ts.get? j = some a → Exists P env a ∧ Holds P env .state a) ?_ ?_ ?_ ?_ ?_ ?_ ?_ ?_ ht
  · intro p hp
    obtain ⟨bs, hb⟩ := hE p hp
    exact .param hb
  · intro p _ _
    exact exists_prim
  · intro t _ ih
    exact exists_one rfl ih fun b hb => by cases hb
  · intro t ht ih
    refine exists_one rfl ih fun b hb => ?_
    rcases List.mem_singleton.1 hb with rfl
    exact stateTy_holds hP hS ht .state (by decide) hS
  · intro k t hk ht ih
    refine exists_two rfl exists_prim (fun b _ => holds_prim (key_has hk b)) ih fun b hb => ?_
    simp only [Con.wants, Nat.one_ne_zero, if_false, List.mem_singleton] at hb
    subst hb
    exact stateTy_holds hP hS ht .state (by decide) hS
  · intro d args hl _ ih
    refine .app hl (fun j a ha b hb => ?_) (fun j a ha => (ih j a ha).1)
    simp only [Con.wants] at hb
    cases hp : (P d).params[j]? with
    | none => rw [not_asked hp] at hb; cases hb
    | some p =>
      obtain ⟨p, ds⟩ := p
      rw [asked hp, show ds = [.state] from hP.bounds d _ (List.mem_of_getElem? hp)] at hb
      rcases List.mem_singleton.1 hb with rfl
      exact (ih j a ha).2
  · intro j a h
    cases h
  · intro t ts ht _ ih1 ih2 j a ha
    cases j with
    | zero => cases ha; exact ⟨ih1, stateTy_holds hP hS ht .state (by decide) hS⟩
    | succ j => exact ih2 j a ha

theorem dataTy_exists (hP : Plain P) (hE : ∀ p ∈ ps, ∃ bs, (p, bs) ∈ env) (hS : Known env ps .state) {t : Exp D}
    (ht : DataTy P ps t) : Exists P env t := by
  induction ht with
  | state h => exact stateTy_exists hP hE hS h
  | string => exact exists_prim
  | bytes => exact exists_prim
  | vec _ ih => exact exists_one rfl ih fun b hb => by cases hb
  | option _ ih => exact exists_one rfl ih fun b hb => by cases hb
  | array _ _ _ ih => exact exists_one rfl ih fun b hb => by cases hb
  | box _ ih => exact exists_one rfl ih fun b hb => by cases hb

/-- Types metadata mentions have metadata. -/
theorem stateTy_meta (hP : Plain P) (hS : Known env ps .state) (hM : Known env ps .hasMeta) {t : Exp D} (ht : StateTy P ps t) :
    ∀ u ∈ t.metaTypes, Holds P env .hasMeta u := by
  have hall := fun {t} (ht : StateTy P ps t) => stateTy_holds hP hS ht .hasMeta (by decide) hM
  refine StateTy.rec (P := P) (ps := ps) (motive_1 := fun t _ => ∀ u ∈ t.metaTypes, Holds P env .hasMeta u)
    (motive_2 := fun ts _ => ∀ u ∈ ts.metaTypes, Holds P env .hasMeta u) ?_ ?_ ?_ ?_ ?_ ?_ ?_ ?_ ht
  · intro p _ u hu
    cases hu
  · intro p h1 h2 u hu
    simp only [Exp.metaTypes, Exps.metaTypes, List.mem_singleton] at hu
    subst hu
    exact hall (.prim h1 h2)
  · intro t ht ih u hu
    simp only [Exp.metaTypes, Exps.metaTypes, List.append_nil, List.mem_cons] at hu
    rcases hu with rfl | hu
    · exact hall (.box ht)
    · exact ih u hu
  · intro t ht ih u hu
    simp only [Exp.metaTypes, Exps.metaTypes, List.append_nil, List.mem_cons] at hu
    rcases hu with rfl | hu
    · exact hall (.list ht)
    · exact ih u hu
  · intro k t hk ht ih u hu
    simp only [Exp.metaTypes, Exps.metaTypes, List.append_nil, List.mem_cons, List.mem_append, List.not_mem_nil, or_false] at hu
    rcases hu with rfl | rfl | hu
    · exact hall (.map hk ht)
    · exact holds_prim (key_has hk _)
    · exact ih u hu
  · intro d args hl hargs ih u hu
    simp only [Exp.metaTypes, List.mem_cons] at hu
    rcases hu with rfl | hu
    · exact hall (.msg hl hargs)
    · exact ih u hu
  · intro u hu
    cases hu
  · intro t ts _ _ ih1 ih2 u hu
    simp only [Exps.metaTypes, List.mem_append] at hu
    rcases hu with hu | hu
    · exact ih1 u hu
    · exact ih2 u hu

theorem dataTy_meta (hP : Plain P) (hS : Known env ps .state) (hM : Known env ps .hasMeta) {t : Exp D} (ht : DataTy P ps t) :
    ∀ u ∈ t.metaTypes, Holds P env .hasMeta u := by
  have hall := fun {t} (ht : DataTy P ps t) => dataTy_holds hP hS ht .hasMeta (by decide) (by decide) hM
  induction ht with
  | state h => exact stateTy_meta hP hS hM h
  | string => intro u hu; rcases List.mem_singleton.1 hu with rfl; exact hall .string
  | bytes => intro u hu; rcases List.mem_singleton.1 hu with rfl; exact hall .bytes
  | vec h ih =>
    intro u hu
    simp only [Exp.metaTypes, Exps.metaTypes, List.append_nil, List.mem_cons] at hu
    rcases hu with rfl | hu
    · exact hall (.vec h)
    · exact ih u hu
  | option h ih =>
    intro u hu
    simp only [Exp.metaTypes, Exps.metaTypes, List.append_nil, List.mem_cons] at hu
    rcases hu with rfl | hu
    · exact hall (.option h)
    · exact ih u hu
  | box h ih =>
    intro u hu
    simp only [Exp.metaTypes, Exps.metaTypes, List.append_nil, List.mem_cons] at hu
    rcases hu with rfl | hu
    · exact hall (.box h)
    · exact ih u hu
  | array h1 h7 h ih =>
    intro u hu
    simp only [Exp.metaTypes, Exps.metaTypes, List.append_nil] at hu
    exact ih u hu

theorem plain_env (hP : Plain P) (d : D) (bounds : List Trait) : Known ((P d).env bounds) ((P d).params.map (·.1)) .state := by
  intro p hp
  obtain ⟨q, hq, rfl⟩ := List.mem_map.1 hp
  refine ⟨_, .state, List.mem_map_of_mem hq, List.mem_append_left _ ?_, closure_refl _⟩
  rw [hP.bounds d q hq]
  exact List.mem_cons_self ..

theorem added_env (d : D) (tr : Trait) (bounds : List Trait) (h : tr ∈ bounds) :
    Known ((P d).env bounds) ((P d).params.map (·.1)) tr := by
  intro p hp
  obtain ⟨q, hq, rfl⟩ := List.mem_map.1 hp
  exact ⟨_, tr, List.mem_map_of_mem hq, List.mem_append_right _ h, closure_refl _⟩

/-- Programs of states are good. -/
theorem plain_good (hP : Plain P) (d : D) : GoodFor P d := by
  have hs := hP.state d
  have hS : ∀ bounds, Known ((P d).env bounds) ((P d).params.map (·.1)) .state := plain_env hP d
  have any : ∀ (bounds : List Trait) (tr : Trait), tr ∈ common → tr ≠ .state → Known ((P d).env bounds) ((P d).params.map (·.1)) tr →
      ∀ f ∈ (P d).body.fields, Holds P ((P d).env bounds) tr f.ty := by
    intro bounds tr htr hne hk f hf
    have := hP.fields d f hf
    cases hn : f.noState <;> simp only [hn, Bool.false_eq_true, if_false, if_true] at this
    · exact stateTy_holds hP (hS _) this tr htr hk
    · exact dataTy_holds hP (hS _) this tr htr hne hk
  have ofS : ∀ (bounds : List Trait) (tr : Trait), tr ∈ Trait.state.closure → Known ((P d).env bounds) ((P d).params.map (·.1)) tr :=
    fun bounds tr h => (hS bounds).closure h
  refine ⟨hP.names d, fun f hf => ?_, fun _ f hf _ => any _ _ (by decide) (by decide) (ofS _ _ (by decide)) f hf,
    fun _ f hf _ => any _ _ (by decide) (by decide) (ofS _ _ (by decide)) f hf,
    fun _ f hf _ => any _ _ (by decide) (by decide) (ofS _ _ (by decide)) f hf,
    fun _ f hf hn => ?_, fun _ f hf _ => any _ _ (by decide) (by decide) (added_env d _ _ (by decide)) f hf,
    fun h => absurd h (by simp [hP.hash d]), fun h => absurd h (by simp [hP.eq d]),
    fun _ f hf _ => any _ _ (by decide) (by decide) (added_env d _ _ (by decide)) f hf, fun _ f hf t ht => ?_,
    fun h => absurd h (by simp [hP.eq d]), fun _ => .inl (by simp [Request.hasDeserialize, hs]),
    fun _ _ _ => .inl (by simp [Request.hasDeserialize, hs]), fun _ _ p hp => ⟨.state, by rw [hP.bounds d p hp]; exact List.mem_cons_self .., .refl⟩⟩
  · have hE : ∀ p ∈ (P d).params.map (·.1), ∃ bs, (p, bs) ∈ (P d).env [] := by
      intro p hp
      obtain ⟨q, hq, rfl⟩ := List.mem_map.1 hp
      exact ⟨_, List.mem_map_of_mem hq⟩
    have := hP.fields d f hf
    cases hn : f.noState <;> simp only [hn, Bool.false_eq_true, if_false, if_true] at this
    · exact stateTy_exists hP hE (hS _) this
    · exact dataTy_exists hP hE (hS _) this
  · have := hP.fields d f hf
    simp only [hn, Bool.false_eq_true, if_false] at this
    exact stateTy_holds hP (hS _) this .state (by decide) (hS _)
  · have := hP.fields d f hf
    have hM := added_env (P := P) d .hasMeta [.hasMeta] (by decide)
    cases hn : f.noState <;> simp only [hn, Bool.false_eq_true, if_false, if_true] at this
    · exact stateTy_meta hP (hS _) hM this t ht
    · exact dataTy_meta hP (hS _) hM this t ht

end Steit.Bounds
