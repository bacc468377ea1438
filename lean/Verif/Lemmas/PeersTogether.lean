import Verif.Props.Compact
import Verif.Props.CutLog
import Verif.Lemmas.Peers

/-!
# Programs that change one state together: the invariant

`Together` holds at the start and after every move (`together_call`, `together_read`).
-/

namespace Steit
open Spec Prog

variable {ι : Type} {t : Ty}

/-- An entry some call could have logged. -/
def Said (t : Ty) (e : Entry) : Prop := ∃ a a', Carried t a ∧ Means t a e a'

theorem said_carried (ht : t.WF) (hs : t.isState = true) {m : Mode} {rt : Rt} {es : List Entry} {v v' : t.El} (hes : ∀ e ∈ es, Said t e) (hv : At t rt v)
    (hc : Carried t v) (h : Applies (t.dict.handle m) v es v') : Carried t v' := by
  have key : ∀ {es : List Entry} {v v' : t.El}, Carried t v → Steps (Means t) v es v' → Carried t v' := by
    intro es
    induction es with
    | nil => intro v v' hc h; cases h; exact hc
    | cons e es ih => rintro v v' hc ⟨u, h1, h2⟩; exact ih (means_carried h1 hc) h2
  exact key hc (steps_of_applies ht hs hes hv h)

/-- The state `v` is what `base` becomes by a log with the first `n k` entries of the log of every program `k`. -/
def Knows (owned : Option ι → Entry → Prop) (t : Ty) (base : t.El) (logs : Option ι → List Entry) (n : Option ι → Nat) (v : t.El) : Prop :=
  ∃ L r, (∀ e ∈ L, (∃ k, owned k e) ∧ Said t e ∧ Fits e) ∧ (∀ k, entriesOf owned k L = (logs k).take (n k)) ∧
    Applies (t.dict.handle .debug) base L r ∧ Same t r v

/-- What is so after any number of moves. -/
structure Together (b : Builds ι) (owned : Option ι → Entry → Prop) (base : t.El) [DecidableEq ι] (s : Option ι → Peer ι t) : Prop where
  pos : ∀ i, At t ⟨b.logger i, []⟩ (s i).value
  quiet : ∀ i, ((s i).world.loggers (b.logger i)).paused = 0
  mine : ∀ i, ∀ e ∈ logOf b s i, owned i e ∧ Said t e ∧ Fits e
  accepted : ∀ i, ∃ r, Applies (t.dict.handle .debug) base (logOf b s i) r
  behind : ∀ i k, (s i).seen k ≤ (logOf b s k).length
  knows : ∀ i, Knows owned t base (logOf b s) (known b s i) (s i).value

variable [DecidableEq ι] {b : Builds ι} {owned : Option ι → Entry → Prop} {P : t.El → Prop} {R : t.El → t.El → Prop} {base : t.El} {rt : Rt}

theorem logOf_set {s : Option ι → Peer ι t} {i : Option ι} {p : Peer ι t} (k : Option ι) :
    logOf b (setPeer s i p) k = if k = i then (p.world.loggers (b.logger i)).entries else logOf b s k := by
  unfold logOf setPeer
  by_cases h : k = i
  · subst h; simp
  · simp [h]

theorem together_call (ht : t.WF) (hs : t.isState = true) (c : Commutes (t.dict.handle .debug) owned P R) (hbase : At t rt base) (hcb : Carried t base)
    (hP : P base) {s : Option ι → Peer ι t} (h : Together b owned base s) {i : Option ι} {op : t.Op}
    (hok : MoveOk b owned s (.call i op)) : ∃ s', move b s (.call i op) = some s' ∧ Together b owned base s' ∧ ∀ k, logOf b s k <+: logOf b s' k := by
  obtain ⟨ha, hsync, hlogged⟩ := hok
  obtain ⟨L, r, hL, hLk, hap, hsame⟩ := h.knows i
  have hcr : Carried t r := said_carried ht hs (fun e he => (hL e he).2.1) hbase hcb hap
  have hc : Carried t (s i).value := (carried_same hsame).1 hcr
  obtain ⟨v', w', es, h1, -, hl, hsteps⟩ := tells t ht (b.mode i) op (s i).value ⟨b.logger i, []⟩ (s i).world (h.pos i) hc ha hsync
  have hv' := at_run t ht (b.mode i) op (s i).value ⟨b.logger i, []⟩ (s i).world v' w' (h.pos i) ha h1
  have hlog : w'.loggers (b.logger i) = ⟨0, logOf b s i ++ es⟩ := by
    have := hl
    unfold Logged at this
    rw [map_under_nil] at this
    simpa [appended, h.quiet i, logOf] using this
  have hnew := hlogged v' w' h1
  rw [hlog] at hnew
  simp only [List.mem_append] at hnew
  have hsaid : ∀ e ∈ es, Said t e := steps_said hc hsteps
  have hes : ∀ e ∈ es, owned i e := fun e he => (hnew e (.inr he)).1
  refine ⟨setPeer s i { s i with value := v', world := w' }, by simp only [move, h1], ?_⟩
  have hlogs : ∀ k, logOf b (setPeer s i { s i with value := v', world := w' }) k = if k = i then logOf b s i ++ es else logOf b s k := by
    intro k
    rw [logOf_set]
    by_cases hk : k = i
    · simp only [hk, if_true, hlog]
    · simp only [hk, if_false]
  obtain ⟨r', h2, h3⟩ := follows_steps ht hs .debug hsteps (applies_at ht hs hbase hap) hsame
  have hL' : ∀ e ∈ L ++ es, (∃ k, owned k e) ∧ Said t e ∧ Fits e := by
    intro e he
    rcases List.mem_append.1 he with he | he
    · exact hL e he
    · exact ⟨⟨i, hes e he⟩, hsaid e he, (hnew e (.inr he)).2⟩
  have hown_i : entriesOf owned i (L ++ es) = logOf b s i ++ es := by
    rw [entriesOf_append, hLk, entriesOf_all hes]
    simp [known]
  refine ⟨?_, fun k => by
    rw [hlogs]
    by_cases hk : k = i
    · subst hk; rw [if_pos rfl]; exact List.prefix_append ..
    · rw [if_neg hk]; exact List.prefix_rfl⟩
  refine ⟨?_, ?_, ?_, ?_, ?_, ?_⟩
  · intro k
    by_cases hk : k = i
    · subst hk; simpa [setPeer] using hv'
    · simpa [setPeer, hk] using h.pos k
  · intro k
    by_cases hk : k = i
    · subst hk; simp [setPeer, hlog]
    · simpa [setPeer, hk] using h.quiet k
  · intro k e he
    rw [hlogs] at he
    by_cases hk : k = i
    · subst hk
      rw [if_pos rfl] at he
      rcases List.mem_append.1 he with he | he
      · exact h.mine k e he
      · exact ⟨hes e he, hsaid e he, (hnew e (.inr he)).2⟩
    · rw [if_neg hk] at he
      exact h.mine k e he
  · intro k
    rw [hlogs]
    by_cases hk : k = i
    · subst hk
      rw [if_pos rfl, ← hown_i]
      exact c.each k (fun e he => (hL' e he).1) hP (hap.trans h2)
    · rw [if_neg hk]
      exact h.accepted k
  · intro j k
    rw [hlogs]
    have hj : ((setPeer s i { s i with value := v', world := w' }) j).seen k = (s j).seen k := by
      unfold setPeer
      by_cases hj : j = i
      · subst hj; simp
      · simp [hj]
    rw [hj]
    by_cases hk : k = i
    · subst hk
      rw [if_pos rfl, List.length_append]
      exact Nat.le_trans (h.behind j k) (Nat.le_add_right ..)
    · rw [if_neg hk]
      exact h.behind j k
  · intro j
    by_cases hj : j = i
    · subst hj
      refine ⟨L ++ es, r', hL', fun k => ?_, hap.trans h2, by simpa [setPeer] using show Same t r' v' from h3⟩
      rw [hlogs]
      by_cases hk : k = j
      · subst hk
        rw [hown_i, if_pos rfl]
        refine (List.take_of_length_le ?_).symm
        simp [known, hlogs]
      · rw [if_neg hk, entriesOf_append, hLk, entriesOf_none (fun e he h' => hk (c.unique h' (hes e he))), List.append_nil]
        simp [known, hk, setPeer]
    · obtain ⟨L, r, g1, g2, g3, g4⟩ := h.knows j
      refine ⟨L, r, g1, fun k => ?_, g3, by simpa [setPeer, hj] using g4⟩
      rw [hlogs, g2]
      by_cases hk : k = i
      · subst hk
        rw [if_pos rfl]
        have : known b (setPeer s k { s k with value := v', world := w' }) j k = known b s j k := by
          simp [known, Ne.symm hj, setPeer, hj]
        rw [this, List.take_append_of_le_length]
        simpa [known, Ne.symm hj] using h.behind j k
      · rw [if_neg hk]
        have : known b (setPeer s i { s i with value := v', world := w' }) j k = known b s j k := by
          unfold known
          rw [hlogs, if_neg hj]
          simp [setPeer, hj]
        rw [this]

theorem together_read (ht : t.WF) (hs : t.isState = true) (hp : shape t ≠ .prim) (hb : ¬ (shape t = .enum ∧ isBox t = true)) (c : Commutes (t.dict.handle .debug) owned P R)
    (hbase : At t rt base) (hP : P base) {s : Option ι → Peer ι t} (h : Together b owned base s) {i j : Option ι} {n : Nat}
    {μ : Nat → Mem} (hok : MoveOk b owned s (.read i j n μ)) : ∃ s', move b s (.read i j n μ) = some s' ∧ Together b owned base s' ∧
      ∀ k, logOf b s k <+: logOf b s' k := by
  have hij : i ≠ j := hok
  obtain ⟨L, r, hL, hLk, hap, hsame⟩ := h.knows i
  have hsent : ∀ e ∈ sent b s i j n, owned j e ∧ Said t e ∧ Fits e := fun e he => h.mine j e (List.mem_of_mem_drop (List.mem_of_mem_take he))
  have hsplit : (logOf b s j).take ((s i).seen j) ++ sent b s i j n = (logOf b s j).take ((s i).seen j + (sent b s i j n).length) := by
    rw [List.take_add]
    congr 1
    unfold sent
    rw [List.length_take, List.take_eq_take_min]
  have hL' : ∀ e ∈ L ++ sent b s i j n, (∃ k, owned k e) ∧ Said t e ∧ Fits e := by
    intro e he
    rcases List.mem_append.1 he with he | he
    · exact hL e he
    · exact ⟨⟨j, (hsent e he).1⟩, (hsent e he).2⟩
  have hLk' : ∀ k, entriesOf owned k (L ++ sent b s i j n) =
      (logOf b s k).take (if k = j then (s i).seen j + (sent b s i j n).length else known b s i k) := by
    intro k
    rw [entriesOf_append, hLk]
    by_cases hk : k = j
    · subst hk
      rw [if_pos rfl, entriesOf_all (fun e he => (hsent e he).1), ← hsplit]
      simp [known, Ne.symm hij]
    · rw [if_neg hk, entriesOf_none (fun e he h' => hk (c.unique h' (hsent e he).1)), List.append_nil]
  obtain ⟨r', h1⟩ := c.merged (fun e he => (hL' e he).1) hP (fun k => by
    rw [hLk']
    obtain ⟨x, h2⟩ := h.accepted k
    rw [← List.take_append_drop (if k = j then (s i).seen j + (sent b s i j n).length else known b s i k) (logOf b s k)] at h2
    obtain ⟨y, h3, -⟩ := h2.split
    exact ⟨y, h3⟩)
  obtain ⟨r1, h2, h3⟩ := h1.split
  obtain rfl := hap.det h2
  have h4 := steps_of_applies ht hs (fun e he => (hsent e he).2.1) (applies_at ht hs hbase hap) h3
  obtain ⟨v', h5, h6⟩ := follows_steps ht hs (b.mode i) h4 (h.pos i) hsame.symm
  have hroot := (C31_accepted_at_root t hs hp hb (b.mode i) ⟨b.logger i, []⟩ (s i).value (h.pos i) rfl []).1
  have hrep := (replay_applies (fun e he => (hsent e he).2.2) hroot).2 ⟨h5, rfl⟩
  have hbytes := bytes_eq (b.mode j) μ ⟨sent b s i j n⟩ (fun e he => (hsent e he).2.2)
  refine ⟨setPeer s i { s i with
      value := v', seen := fun k => if k = j then (s i).seen k + (sent b s i j n).length else (s i).seen k },
    by simp only [move, hbytes, hrep], ?_⟩
  have hlogs : ∀ k, logOf b (setPeer s i { s i with
      value := v', seen := fun k => if k = j then (s i).seen k + (sent b s i j n).length else (s i).seen k }) k = logOf b s k := by
    intro k
    rw [logOf_set]
    by_cases hk : k = i
    · subst hk; rw [if_pos rfl]; rfl
    · rw [if_neg hk]
  refine ⟨?_, fun k => by rw [hlogs]; exact List.prefix_rfl⟩
  refine ⟨?_, ?_, ?_, ?_, ?_, ?_⟩
  · intro k
    by_cases hk : k = i
    · subst hk; simpa [setPeer] using applies_at ht hs (h.pos k) h5
    · simpa [setPeer, hk] using h.pos k
  · intro k
    by_cases hk : k = i
    · subst hk; simpa [setPeer] using h.quiet k
    · simpa [setPeer, hk] using h.quiet k
  · intro k e he
    rw [hlogs] at he
    exact h.mine k e he
  · intro k
    rw [hlogs]
    exact h.accepted k
  · intro k k'
    rw [hlogs]
    by_cases hk : k = i
    · subst hk
      by_cases hk' : k' = j
      · subst hk'
        have := congrArg List.length hsplit
        simp only [setPeer, if_true]
        have h7 := h.behind k k'
        have h8 : (sent b s k k' n).length ≤ (logOf b s k').length - (s k).seen k' := by
          unfold sent
          rw [List.length_take, List.length_drop]
          omega
        omega
      · simpa [setPeer, hk'] using h.behind k k'
    · simpa [setPeer, hk] using h.behind k k'
  · intro k
    by_cases hk : k = i
    · subst hk
      refine ⟨L ++ sent b s k j n, r', hL', fun k' => ?_, h1, by simpa [setPeer] using show Same t r' v' from h6.symm⟩
      rw [hlogs, hLk']
      congr 1
      unfold known
      rw [hlogs]
      by_cases hk' : k' = k
      · subst hk'; simp [hij]
      · by_cases hj : k' = j
        · subst hj; simp [setPeer, hk']
        · simp [setPeer, hk', hj]
    · obtain ⟨L, r, g1, g2, g3, g4⟩ := h.knows k
      refine ⟨L, r, g1, fun k' => ?_, g3, by simpa [setPeer, hk] using g4⟩
      rw [hlogs, g2]
      congr 1
      unfold known
      rw [hlogs]
      simp [setPeer, hk]

/-- A log with what program `i` knows, in another order. -/
theorem together_log (ht : t.WF) (hs : t.isState = true) (c : Commutes (t.dict.handle .debug) owned P R) (hbase : At t rt base) (hcb : Carried t base)
    (hP : P base) {s : Option ι → Peer ι t} (h : Together b owned base s) {i : Option ι} {L : List Entry}
    (hL : ∀ e ∈ L, ∃ k, owned k e) (hLk : ∀ k, entriesOf owned k L = (logOf b s k).take (known b s i k)) :
    ∃ x y, Steps (Means t) base L x ∧ R x y ∧ Same t y (s i).value ∧ At t rt x ∧ At t rt y ∧ Carried t x ∧ (∀ e ∈ L, Said t e) ∧ (∀ e ∈ L, Fits e) ∧ Carried t (s i).value := by
  obtain ⟨L', r, g1, g2, g3, g4⟩ := h.knows i
  have hall : ∀ e ∈ L, Said t e ∧ Fits e := by
    intro e he
    obtain ⟨k, hk⟩ := hL e he
    have : e ∈ entriesOf owned k L := by
      unfold entriesOf
      exact List.mem_filter.2 ⟨he, by simpa using hk⟩
    rw [hLk] at this
    exact (h.mine k e (List.mem_of_mem_take this)).2
  obtain ⟨x, h1⟩ := c.merged hL hP (fun k => by
    rw [hLk, ← g2]
    exact c.each k (fun e he => (g1 e he).1) hP g3)
  have h2 := c.same_parts hL (fun e he => (g1 e he).1) hP (fun k => by rw [hLk, g2]) h1 g3
  exact ⟨x, r, steps_of_applies ht hs (fun e he => (hall e he).1) hbase h1, h2, g4, applies_at ht hs hbase h1, applies_at ht hs hbase g3, said_carried ht hs (fun e he => (hall e he).1) hbase hcb h1, fun e he => (hall e he).1, fun e he => (hall e he).2,
    (carried_same g4).1 (said_carried ht hs (fun e he => (g1 e he).2.1) hbase hcb g3)⟩

theorem known_le {s : Option ι → Peer ι t} (h : Together b owned base s) (i k : Option ι) : known b s i k ≤ (logOf b s k).length := by
  unfold known
  by_cases hk : k = i
  · subst hk; simp
  · rw [if_neg hk]; exact h.behind i k

/-- A log with what program `j` knows in the end and program `i` did not know before. -/
theorem together_rest (ht : t.WF) (hs : t.isState = true) (c : Commutes (t.dict.handle .debug) owned P R) (hbase : At t rt base) (hcb : Carried t base)
    (hP : P base) {s s' : Option ι → Peer ι t} (h : Together b owned base s) (h' : Together b owned base s')
    (hgrow : ∀ k, logOf b s k <+: logOf b s' k) {i j : Option ι} (hle : ∀ k, known b s i k ≤ known b s' j k) {L : List Entry}
    (hL : ∀ e ∈ L, ∃ k, owned k e) (hLk : ∀ k, entriesOf owned k L = ((logOf b s' k).take (known b s' j k)).drop (known b s i k)) :
    ∃ z x y, Same t z (s i).value ∧ Steps (Means t) z L x ∧ R x y ∧ Same t y (s' j).value ∧ At t rt x ∧ At t rt y ∧ Carried t x ∧
      (∀ e ∈ L, Fits e) ∧ Carried t (s' j).value := by
  obtain ⟨L', r, g1, g2, g3, g4⟩ := h.knows i
  obtain ⟨x, y, h1, h2, h3, h4, h5, h6, -, h7, h8⟩ := together_log ht hs c hbase hcb hP h' (i := j) (L := L' ++ L)
    (fun e he => (List.mem_append.1 he).elim (fun he => (g1 e he).1) (hL e)) (fun k => by
      obtain ⟨tail, ht⟩ := hgrow k
      rw [entriesOf_append, g2, hLk, ← List.take_append_of_le_length (l₂ := tail) (known_le h i k), ht]
      conv_rhs => rw [← List.take_append_drop (known b s i k) ((logOf b s' k).take (known b s' j k))]
      rw [List.take_take, Nat.min_eq_left (hle k)])
  obtain ⟨z, h9, h10⟩ := h1.split
  obtain ⟨r', h11, h12⟩ := follows_steps ht hs .debug h9 hbase rfl
  obtain rfl := h11.det g3
  exact ⟨z, x, y, (show Same t z r' from h12.symm).trans g4, h10, h2, h3, h4, h5, h6, fun e he => h7 e (List.mem_append_right _ he), h8⟩

end Steit
