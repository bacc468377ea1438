import Verif.Spec.Peers
import Verif.Lemmas.Serial

/-!
# Logs of several programs

If entries of different programs can change places (`Commutes`), then a log is accepted if and only if the entries of each program are
(`Commutes.merged`, `Commutes.each`), and the result depends on these only (`Commutes.same_parts`), up to a relation `R`.
-/

namespace Steit
open Spec

variable {ι τ : Type} {h : τ → List U32 → LogKind → Option U32 → Bytes → Res τ} {owned : Option ι → Entry → Prop} {P : τ → Prop}
  {R : τ → τ → Prop}

/-- Entries of different programs can change places: the states `P` stay such states, and the results are the same up to `R`. -/
structure Commutes (h : τ → List U32 → LogKind → Option U32 → Bytes → Res τ) (owned : Option ι → Entry → Prop) (P : τ → Prop)
    (R : τ → τ → Prop) : Prop where
  unique : ∀ {k k' e}, owned k e → owned k' e → k = k'
  step : ∀ {v v1 k e r}, P v → owned k e → applyE h v e = .ok v1 r → P v1
  refl : ∀ {v}, P v → R v v
  symm : ∀ {v w}, R v w → R w v
  trans : ∀ {u v w}, R u v → R v w → R u w
  congr : ∀ {v w v1 e r}, R v w → applyE h v e = .ok v1 r → ∃ w1 r', applyE h w e = .ok w1 r' ∧ R v1 w1
  swap : ∀ {v v1 v2 k k' x y r r'}, P v → k ≠ k' → owned k x → owned k' y → applyE h v x = .ok v1 r → applyE h v1 y = .ok v2 r' →
    ∃ w1 w2 s s', applyE h v y = .ok w1 s ∧ applyE h w1 x = .ok w2 s' ∧ R v2 w2
  beside : ∀ {v v1 w1 k k' x y r r'}, P v → k ≠ k' → owned k x → owned k' y → applyE h v x = .ok v1 r → applyE h v y = .ok w1 r' →
    ∃ v2 s, applyE h v1 y = .ok v2 s

namespace Commutes

theorem congr_all (c : Commutes h owned P R) : ∀ {es : List Entry} {v w v' : τ}, R v w → Applies h v es v' → ∃ w', Applies h w es w' ∧ R v' w'
  | [], _, w, _, hr, ha => by cases ha; exact ⟨w, rfl, hr⟩
  | _ :: _, _, _, _, hr, ⟨_, _, h1, h2⟩ => by
    obtain ⟨w1, r', h3, h4⟩ := c.congr hr h1
    obtain ⟨w', h5, h6⟩ := congr_all c h4 h2
    exact ⟨w', ⟨w1, r', h3, h5⟩, h6⟩

/-- What two programs do separately they can do one after the other. -/
theorem beside_all (c : Commutes h owned P R) {k k' : Option ι} (hk : k ≠ k') {x : Entry} (hx : owned k x) : ∀ {W : List Entry} {v v1 v2 : τ} {r : Bytes},
    P v → (∀ e ∈ W, owned k' e) → applyE h v x = .ok v1 r → Applies h v W v2 → ∃ v', Applies h v1 W v'
  | [], _, v1, _, _, _, _, _, _ => ⟨v1, rfl⟩
  | y :: W, v, v1, v2, r, hp, hW, h1, ⟨w, r', h2, h3⟩ => by
    have hy := hW y (List.mem_cons_self ..)
    obtain ⟨w1, s, h4⟩ := c.beside hp hk hx hy h1 h2
    obtain ⟨a, b, s1, s2, h5, h6, h7⟩ := c.swap hp hk hx hy h1 h4
    rw [h2] at h5
    cases h5
    obtain ⟨z, h8⟩ := beside_all c hk hx (c.step hp hy h2) (fun e he => hW e (List.mem_cons_of_mem _ he)) h6 h3
    obtain ⟨z', h9, -⟩ := c.congr_all (c.symm h7) h8
    exact ⟨z', w1, s, h4, h9⟩

theorem to_front (c : Commutes h owned P R) {k : Option ι} {e : Entry} (he : owned k e) {post : List Entry} : ∀ {pre : List Entry} {v v' : τ},
    (∀ x ∈ pre, ∃ k', k' ≠ k ∧ owned k' x) → P v → R v' v' → Applies h v (pre ++ e :: post) v' →
    ∃ v'', Applies h v (e :: (pre ++ post)) v'' ∧ R v' v''
  | [], _, v', _, _, hr, h => ⟨v', h, hr⟩
  | x :: pre, v, v', hpre, hp, hr, ⟨v1, r, h1, h2⟩ => by
    obtain ⟨k', hk, hx⟩ := hpre x (List.mem_cons_self ..)
    obtain ⟨v'', ⟨v2, r2, h4, h5⟩, h6⟩ := to_front c he (fun y hy => hpre y (List.mem_cons_of_mem _ hy)) (c.step hp hx h1) hr h2
    obtain ⟨a, b, s, s', h7, h8, h9⟩ := c.swap hp hk hx he h1 h4
    obtain ⟨z, h10, h11⟩ := c.congr_all h9 h5
    exact ⟨z, ⟨a, s, h7, b, s', h8, h10⟩, c.trans h6 h11⟩

theorem to_end (c : Commutes h owned P R) {k : Option ι} {e : Entry} (he : owned k e) : ∀ {W : List Entry} {v v' : τ},
    (∀ x ∈ W, ∃ k', k' ≠ k ∧ owned k' x) → P v → Applies h v (e :: W) v' → ∃ v'', Applies h v (W ++ [e]) v''
  | [], _, v', _, _, h => ⟨v', h⟩
  | x :: W, v, v', hW, hp, ⟨v1, r, h1, v2, r2, h2, h3⟩ => by
    obtain ⟨k', hk, hx⟩ := hW x (List.mem_cons_self ..)
    obtain ⟨a, b, s, s', h4, h5, h6⟩ := c.swap hp (Ne.symm hk) he hx h1 h2
    obtain ⟨z, h7, -⟩ := c.congr_all h6 h3
    obtain ⟨z', h8⟩ := to_end c he (fun y hy => hW y (List.mem_cons_of_mem _ hy)) (c.step hp hx h4) ⟨b, s', h5, h7⟩
    exact ⟨z', a, s, h4, h8⟩

end Commutes

/-! ### The entries of each -/

theorem entriesOf_pos {k : Option ι} {e : Entry} (h : owned k e) (es : List Entry) :
    entriesOf owned k (e :: es) = e :: entriesOf owned k es := List.filter_cons_of_pos (by simpa using h)

theorem entriesOf_neg {k : Option ι} {e : Entry} (h : ¬ owned k e) (es : List Entry) :
    entriesOf owned k (e :: es) = entriesOf owned k es := List.filter_cons_of_neg (by simpa using h)

theorem entriesOf_append {k : Option ι} (es es' : List Entry) :
    entriesOf owned k (es ++ es') = entriesOf owned k es ++ entriesOf owned k es' := List.filter_append ..

theorem entriesOf_mem {k : Option ι} {es : List Entry} {e : Entry} (h : e ∈ entriesOf owned k es) : e ∈ es ∧ owned k e := by
  simpa using List.mem_filter.1 h

theorem entriesOf_all {k : Option ι} {es : List Entry} (h : ∀ e ∈ es, owned k e) : entriesOf owned k es = es :=
  List.filter_eq_self.2 fun e he => by simpa using h e he

theorem entriesOf_none {k : Option ι} {es : List Entry} (h : ∀ e ∈ es, ¬ owned k e) : entriesOf owned k es = [] :=
  List.filter_eq_nil_iff.2 fun e he => by simpa using h e he

namespace Commutes

theorem step_all (c : Commutes h owned P R) : ∀ {es : List Entry} {v v' : τ}, (∀ e ∈ es, ∃ k, owned k e) → P v → Applies h v es v' → P v'
  | [], _, _, _, hp, ha => by cases ha; exact hp
  | e :: _, _, _, hes, hp, ⟨_, _, h1, h2⟩ => by
    obtain ⟨k, he⟩ := hes e (List.mem_cons_self ..)
    exact step_all c (fun x hx => hes x (List.mem_cons_of_mem _ hx)) (c.step hp he h1) h2

theorem merged (c : Commutes h owned P R) : ∀ {es : List Entry} {v : τ}, (∀ e ∈ es, ∃ k, owned k e) → P v →
    (∀ k, ∃ v', Applies h v (entriesOf owned k es) v') → ∃ v', Applies h v es v'
  | [], v, _, _, _ => ⟨v, rfl⟩
  | e :: es, v, hes, hp, ha => by
    obtain ⟨k, he⟩ := hes e (List.mem_cons_self ..)
    obtain ⟨v', h1⟩ := ha k
    rw [entriesOf_pos he] at h1
    obtain ⟨v1, r, h2, h3⟩ := h1
    obtain ⟨v'', h5⟩ := merged c (fun x hx => hes x (List.mem_cons_of_mem _ hx)) (c.step hp he h2) (fun k' => by
        rcases Classical.em (k' = k) with rfl | hk
        · exact ⟨_, h3⟩
        · obtain ⟨w, h6⟩ := ha k'
          rw [entriesOf_neg (fun h => hk (c.unique h he))] at h6
          exact c.beside_all (Ne.symm hk) he hp (fun x hx => (entriesOf_mem hx).2) h2 h6)
    exact ⟨v'', v1, r, h2, h5⟩

theorem each (c : Commutes h owned P R) (k : Option ι) : ∀ {es : List Entry} {v v' : τ}, (∀ e ∈ es, ∃ k, owned k e) → P v →
    Applies h v es v' → ∃ v', Applies h v (entriesOf owned k es) v'
  | [], v, _, _, _, _ => ⟨v, rfl⟩
  | e :: es, v, v', hes, hp, ⟨v1, r, h1, h2⟩ => by
    obtain ⟨k0, he⟩ := hes e (List.mem_cons_self ..)
    obtain ⟨v2, h5⟩ := each c k (fun x hx => hes x (List.mem_cons_of_mem _ hx)) (c.step hp he h1) h2
    rcases Classical.em (k0 = k) with rfl | hk
    · rw [entriesOf_pos he]
      exact ⟨v2, v1, r, h1, h5⟩
    · rw [entriesOf_neg (fun h => hk (c.unique he h))]
      obtain ⟨z, h6⟩ := c.to_end he (fun x hx => ⟨k, Ne.symm hk, (entriesOf_mem hx).2⟩) hp ⟨v1, r, h1, h5⟩
      obtain ⟨v3, h7, -⟩ := h6.split
      exact ⟨v3, h7⟩

theorem same_parts (c : Commutes h owned P R) : ∀ {es es' : List Entry} {v v' v'' : τ}, (∀ e ∈ es, ∃ k, owned k e) → (∀ e ∈ es', ∃ k, owned k e) →
    P v → (∀ k, entriesOf owned k es = entriesOf owned k es') → Applies h v es v' → Applies h v es' v'' → R v' v''
  | [], es', v, v', v'', _, hes', hp, ha, h1, h2 => by
    obtain rfl : es' = [] := by
      cases es' with
      | nil => rfl
      | cons e es' =>
        obtain ⟨k, he⟩ := hes' e (List.mem_cons_self ..)
        have := ha k
        rw [entriesOf_pos he] at this
        cases this
    cases h1
    cases h2
    exact c.refl hp
  | e :: es, es', v, v', v'', hes, hes', hp, ha, ⟨v1, r, h1, h2⟩, h3 => by
    obtain ⟨k, he⟩ := hes e (List.mem_cons_self ..)
    have h4 := ha k
    rw [entriesOf_pos he] at h4
    obtain ⟨pre, post, rfl, hpre, -, h5⟩ := List.filter_eq_cons_iff.1 h4.symm
    have hpre' : ∀ x ∈ pre, ¬ owned k x := fun x hx => by simpa using hpre x hx
    obtain ⟨z, ⟨v2, r2, h7, h8⟩, h9⟩ := c.to_front he (fun x hx => by
      obtain ⟨k', hx'⟩ := hes' x (List.mem_append_left _ hx)
      exact ⟨k', fun h => hpre' x hx (h ▸ hx'), hx'⟩) hp (c.refl (c.step_all hes' hp h3)) h3
    rw [h1] at h7
    cases h7
    refine c.trans (same_parts c (fun x hx => hes x (List.mem_cons_of_mem _ hx)) (fun x hx => hes' x (by
      rcases List.mem_append.1 hx with hx | hx
      · exact List.mem_append_left _ hx
      · exact List.mem_append_right _ (List.mem_cons_of_mem _ hx))) (c.step hp he h1) (fun k' => ?_) h2 h8) (c.symm h9)
    have h10 := ha k'
    rw [entriesOf_append] at h10 ⊢
    rcases Classical.em (k' = k) with rfl | hk
    · rw [entriesOf_pos he, entriesOf_pos he, entriesOf_none hpre', List.nil_append] at h10
      rw [entriesOf_none hpre', List.nil_append]
      exact (List.cons.inj h10).2
    · have hn : ¬ owned k' e := fun h => hk (c.unique h he)
      rw [entriesOf_neg hn, entriesOf_neg hn] at h10
      exact h10

end Commutes

end Steit
