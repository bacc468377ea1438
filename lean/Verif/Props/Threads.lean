import Verif.Lemmas.Serial
import Verif.Props.Parts

/-!
# Threads sharing a logger: property C41

The claim that all entries reach the log is false: a call with a pause window (even `List::push`) makes the logger drop what
other threads log meanwhile (`C41_lost_entry_false`). What does hold is proved beside it, for any number of threads, any schedule
and calls of any kind: without windows the log is an interleaving of what the threads log alone, and replicas of the whole
state follow; with windows entries can be lost, but nothing else happens to the log.
-/

namespace Steit
open Spec

/-! ## The loss -/

/-- A list of lists, [[], [7]], with logger 0. -/
def raceTy : Ty := .list (.list (.uint .w8))
def raceVal : raceTy.El := ⟨⟨0, []⟩, [⟨⟨0, [0#32]⟩, []⟩, ⟨⟨0, [1#32]⟩, [7#8]⟩]⟩

/-- One thread pushes 5 to the first of them, the other one pops the last item of the second one. -/
def racePush : Worker := ⟨.list (.uint .w8), .debug, [.push 5#8], ⟨⟨0, [0#32]⟩, []⟩, ⟨0, [0#32]⟩⟩
def racePop : Worker := ⟨.list (.uint .w8), .debug, [.pop], ⟨⟨0, [1#32]⟩, [7#8]⟩, ⟨0, [1#32]⟩⟩

/-- C41 is false: two threads call plain `push` and `pop` on different items of one state. Under the given schedule both calls
succeed, but only one entry is logged: the `pop` falls into the window of the `push`. A replica that replays the log keeps
the item that the source has lost. -/
theorem C41_lost_entry_false :
    (∃ put, Part raceTy raceVal [0#32] racePush.t racePush.v put) ∧ (∃ put, Part raceTy raceVal [1#32] racePop.t racePop.v put) ∧
    racePush.Ok true 0 ∧ racePop.Ok true 0 ∧
    ∃ u : Threads, Threads.Steps ⟨fun _ => ⟨0, []⟩, [⟨racePush.code⟩, ⟨racePop.code⟩]⟩ u ∧
      u.threads = [⟨(.ret (.ok ⟨⟨0, [0#32]⟩, [5#8]⟩) : Exec (Ty.list (.uint .w8)).El)⟩,
        ⟨(.ret (.ok ⟨⟨0, [1#32]⟩, []⟩) : Exec (Ty.list (.uint .w8)).El)⟩] ∧
      u.loggers 0 = ⟨0, [.listPush [0#32] [5#8]]⟩ ∧
      ∃ r', applyAll raceTy.dict .debug raceVal [.listPush [0#32] [5#8]] = .ok r' ∧
        strip raceTy r' = strip raceTy (⟨⟨0, []⟩, [⟨⟨0, [0#32]⟩, [5#8]⟩, ⟨⟨0, [1#32]⟩, [7#8]⟩]⟩ : raceTy.El) ∧
        ¬ Same raceTy r' (⟨⟨0, []⟩, [⟨⟨0, [0#32]⟩, [5#8]⟩, ⟨⟨0, [1#32]⟩, []⟩]⟩ : raceTy.El) := by
  refine ⟨⟨_, .inside (.item (i := 0) (by decide) rfl) .self⟩, ⟨_, .inside (.item (i := 1) (by decide) rfl) .self⟩,
    ⟨⟨rfl, trivial⟩, ⟨rfl, fun _ _ h => nomatch h⟩, rfl, ⟨⟨⟨0, []⟩, trivial⟩, rfl, fun _ _ _ _ => trivial⟩⟩,
    ⟨⟨rfl, trivial⟩, ⟨rfl, fun i x h => trivial⟩, rfl, ⟨trivial, trivial, fun _ _ _ _ => trivial⟩⟩, ?_⟩
  refine ⟨_, .head (.mk (i := 0) rfl .act) (.head (.mk (i := 1) rfl .act) (.head (.mk (i := 0) rfl .act)
    (.head (.mk (i := 0) rfl (.mem (fun _ => 0))) (.head (.mk (i := 0) rfl .act) (.refl _))))), ?_, ?_, ?_⟩
  · rfl
  · rfl
  · exact ⟨_, rfl, rfl, fun h => by
      let lengths : ListV (ListV (BitVec 8)) → List Nat := fun v => v.items.map fun l => l.items.length
      have h1 : [1, 1] = [1, 0] := congrArg lengths h
      cases h1⟩

/-! ## Schedules end -/

theorem acc_cons {α : Type} (x : Exec α) : ∀ ts : List Thread,
    Acc (fun b a : List Thread => ∃ ls ls', Threads.Step ⟨ls, a⟩ ⟨ls', b⟩) ts →
    Acc (fun b a : List Thread => ∃ ls ls', Threads.Step ⟨ls, a⟩ ⟨ls', b⟩) (⟨x⟩ :: ts) := by
  have key : ∀ x : Exec α, (∀ ls ls' x', x.Step ls ls' x' → ∀ ts : List Thread,
      Acc (fun b a : List Thread => ∃ ls ls', Threads.Step ⟨ls, a⟩ ⟨ls', b⟩) ts →
      Acc (fun b a : List Thread => ∃ ls ls', Threads.Step ⟨ls, a⟩ ⟨ls', b⟩) (⟨x'⟩ :: ts)) → ∀ ts : List Thread,
      Acc (fun b a : List Thread => ∃ ls ls', Threads.Step ⟨ls, a⟩ ⟨ls', b⟩) ts →
      Acc (fun b a : List Thread => ∃ ls ls', Threads.Step ⟨ls, a⟩ ⟨ls', b⟩) (⟨x⟩ :: ts) := by
    intro x hx ts hts
    induction hts with
    | intro ts hts ih =>
      refine .intro _ (fun b hb => ?_)
      obtain ⟨ls, ls', hb⟩ := hb
      cases hb with
      | @mk _ _ _ i β y y' hi hy =>
        cases i with
        | zero =>
          have hi' : (⟨x⟩ : Thread) = ⟨y⟩ := Option.some.inj hi
          cases hi'
          exact hx _ _ _ hy ts (.intro ts hts)
        | succ i => exact ih _ ⟨ls, ls', .mk (by simpa using hi) hy⟩
  induction x with
  | ret r => exact key _ (fun _ _ _ h => nomatch h)
  | act id f k ih =>
    refine key _ (fun _ _ x' h => ?_)
    cases h
    exact ih _
  | mem k ih =>
    refine key _ (fun _ _ x' h => ?_)
    cases h
    exact ih _

theorem acc_all : ∀ ts : List Thread, Acc (fun b a : List Thread => ∃ ls ls', Threads.Step ⟨ls, a⟩ ⟨ls', b⟩) ts
  | [] => .intro _ (fun b hb => by
      obtain ⟨ls, ls', hb⟩ := hb
      cases hb with
      | mk hi => simp at hi)
  | ⟨x⟩ :: ts => acc_cons x ts (acc_all ts)

theorem acc_threads {ts : List Thread} (h : Acc (fun b a : List Thread => ∃ ls ls', Threads.Step ⟨ls, a⟩ ⟨ls', b⟩) ts) :
    ∀ ls, Acc (fun b a => Threads.Step a b) (⟨ls, ts⟩ : Threads) := by
  induction h with
  | intro ts _ ih =>
    intro ls
    refine .intro _ (fun b hb => ?_)
    obtain ⟨ls', ts'⟩ := b
    exact ih ts' ⟨ls, ls', hb⟩ ls'

/-- C41: every thread that has not returned can take a step: there is no deadlock. -/
theorem C41_no_deadlock (s : Threads) (h : ¬ s.Done) : ∃ u, Threads.Step s u := by
  obtain ⟨ls, ts⟩ := s
  obtain ⟨t, hn⟩ := Classical.not_forall.1 h
  obtain ⟨ht, hx⟩ := Classical.not_imp.1 hn
  obtain ⟨i, hi⟩ := List.getElem?_of_mem ht
  obtain ⟨x⟩ := t
  cases x with
  | ret r => exact absurd ⟨r, rfl⟩ hx
  | act id f k => exact ⟨_, .mk hi .act⟩
  | mem k => exact ⟨_, .mk hi (.mem (fun _ => 0))⟩

/-- C41: there is no infinite schedule, whatever the threads run. -/
theorem C41_schedules_end (s : Threads) : Acc (fun b a => Threads.Step a b) s := by
  obtain ⟨ls, ts⟩ := s
  exact acc_threads (acc_all ts) ls

/-- C41: following any schedule, in the end all threads have returned or panicked. -/
theorem C41_all_return (s : Threads) : ∃ u, Threads.Steps s u ∧ u.Done := by
  have h := C41_schedules_end s
  induction h with
  | intro s _ ih =>
    by_cases hd : s.Done
    · exact ⟨s, .refl s, hd⟩
    · obtain ⟨u, hu⟩ := C41_no_deadlock s hd
      obtain ⟨w, h1, h2⟩ := ih u hu
      exact ⟨w, .head hu h1, h2⟩

/-! ## Without pause windows -/

/-- The threads running the given workers, with the given loggers. -/
def start (ls : Nat → LoggerSt) (ks : List Worker) : Threads := ⟨ls, ks.map fun k => ⟨k.code⟩⟩

theorem start_tame {win : Bool} {id : Nat} {ks : List Worker} (hk : ∀ k ∈ ks, k.Ok win id) {ls : Nat → LoggerSt} {i : Nat}
    {α : Type} {x : Exec α} (h : (start ls ks).threads[i]? = some ⟨x⟩) : Tame win id 0 x 0 := by
  simp only [start, List.getElem?_map] at h
  cases hi : ks[i]? with
  | none => rw [hi] at h; cases h
  | some k =>
    rw [hi] at h
    cases h
    obtain ⟨h1, h2, h3, h4⟩ := hk k (List.mem_of_getElem? hi)
    rw [← h3]
    exact tame_calls k.t h1 k.m k.ops k.v k.rt h2 h4

theorem start_get {ls : Nat → LoggerSt} {ks : List Worker} {i : Nat} {k : Worker} (h : ks[i]? = some k) :
    (start ls ks).threads[i]? = some ⟨k.code⟩ := by
  simp only [start, List.getElem?_map, h]
  rfl

/-- C41, without pause windows: any number of threads make calls of any kind other than `push` and the `…_with` methods, on
objects sharing one logger, which is not paused. Whatever the schedule, each thread ends as it would alone, and the log is
an interleaving of the blocks the threads would log alone: nothing is lost, the order of each thread is kept, and the two
entries of a `swap_remove`, which are one block, stay together. Other loggers are not touched. -/
theorem C41_without_windows_partial (id : Nat) (ks : List Worker) (hk : ∀ k ∈ ks, k.Ok false id) (ls : Nat → LoggerSt)
    (h0 : (ls id).paused = 0) (u : Threads) (hs : Threads.Steps (start ls ks) u) (hu : u.Done) :
    ∃ (bss : List (List (List Entry))) (B : List (List Entry)), bss.length = ks.length ∧ u.threads.length = ks.length ∧
      (∀ (i : Nat) k, ks[i]? = some k → ∃ r bs, u.threads[i]? = some ⟨(.ret r : Exec k.t.El)⟩ ∧ bss[i]? = some bs ∧ k.Alone id r bs) ∧
      Merge bss B ∧ u.loggers id = ⟨0, (ls id).entries ++ B.flatten⟩ ∧ ∀ j, j ≠ id → u.loggers j = ls j := by
  obtain ⟨ass, L, h1, h2, h3, h4, h5, h6⟩ := schedule (win := false) (id := id) hs hu (fun _ => 0) (fun i α x h => start_tame hk h)
  have hlen : (start ls ks).threads.length = ks.length := List.length_map ..
  rw [hlen] at h1 h2
  -- all actions are blocks
  have hb : ∀ as ∈ ass, ∃ bs : List (List Entry), as = bs.map .block := by
    intro as has
    obtain ⟨i, hi⟩ := List.getElem?_of_mem has
    have hil := (List.getElem?_eq_some_iff.1 hi).1
    obtain ⟨as', r, k1, _, k3⟩ := h3 i _ _ (start_get (List.getElem?_eq_getElem (l := ks) (by omega)))
    rw [hi] at k1
    cases k1
    exact k3.blocks
  obtain ⟨bss, rfl⟩ : ∃ bss : List (List (List Entry)), ass = bss.map (List.map .block) := by
    clear h1 h3 h4
    induction ass with
    | nil => exact ⟨[], rfl⟩
    | cons as ass ih =>
      obtain ⟨bs, rfl⟩ := hb as List.mem_cons_self
      obtain ⟨bss, rfl⟩ := ih (fun x hx => hb x (List.mem_cons_of_mem _ hx))
      exact ⟨bs :: bss, rfl⟩
  obtain ⟨B, rfl, hB⟩ := merge_map Act.block h4 bss rfl
  have hopen : ∀ bs : List (List Entry), Open false 0 (bs.map .block) 0 := by
    intro bs
    induction bs with
    | nil => exact .nil 0
    | cons b bs ih => exact .block b ih
  have hon : ∀ (bs : List (List Entry)) (l : LoggerSt), l.paused = 0 → actsOn (bs.map .block) l = ⟨0, l.entries ++ bs.flatten⟩ := by
    intro bs l hl
    rw [open_actsOn (hopen bs) l hl, visible_blocks]
  refine ⟨bss, B, by simpa using h1, h2, ?_, hB, ?_, h6⟩
  · intro i k hi
    obtain ⟨as, r, k1, k2, k3⟩ := h3 i _ _ (start_get hi)
    rw [List.getElem?_map] at k1
    cases hbi : bss[i]? with
    | none => rw [hbi] at k1; cases k1
    | some bs =>
      rw [hbi] at k1
      cases k1
      refine ⟨r, bs, k2, rfl, fun ls' h0' => ?_⟩
      obtain ⟨w, w', l1, l2, l3⟩ := k3.run ls'
      exact ⟨w, w', l1, l2, l3.trans (hon bs _ h0')⟩
  · rw [h5]
    exact hon B _ h0

/-- C41, with pause windows: calls of any kind, closures included as long as they use this logger only. If no thread panics,
the logger ends as paused as it was before, and the log is an interleaving of some of the blocks each thread would log
alone: blocks can be lost, but nothing is reordered within a thread, duplicated or invented. -/
theorem C41_with_windows_partial (id : Nat) (ks : List Worker) (hk : ∀ k ∈ ks, k.Ok true id) (ls : Nat → LoggerSt) (u : Threads)
    (hs : Threads.Steps (start ls ks) u) (hu : u.Done)
    (hok : ∀ (i : Nat) k r, ks[i]? = some k → u.threads[i]? = some ⟨(.ret r : Exec k.t.El)⟩ → ∃ a, r = .ok a) :
    ∃ (kept : List (List (List Entry))) (B : List (List Entry)), kept.length = ks.length ∧
      (∀ (i : Nat) k, ks[i]? = some k → ∃ r bs all, u.threads[i]? = some ⟨(.ret r : Exec k.t.El)⟩ ∧ kept[i]? = some bs ∧
        bs.Sublist all ∧ k.Alone id r all) ∧
      Merge kept B ∧ u.loggers id = ⟨(ls id).paused, (ls id).entries ++ B.flatten⟩ ∧ ∀ j, j ≠ id → u.loggers j = ls j := by
  obtain ⟨ass, L, h1, h2, h3, h4, h5, h6⟩ := schedule (win := true) (id := id) hs hu (fun _ => 0) (fun i α x h => start_tame hk h)
  have hlen : (start ls ks).threads.length = ks.length := List.length_map ..
  rw [hlen] at h1 h2
  have hopen : ∀ (i : Nat) as, ass[i]? = some as → Open true 0 as 0 := by
    intro i as hi
    have hil := (List.getElem?_eq_some_iff.1 hi).1
    have hki : ks[i]? = some (ks[i]'(by omega)) := List.getElem?_eq_getElem (l := ks) (by omega)
    obtain ⟨as', r, k1, k2, k3⟩ := h3 i _ _ (start_get hki)
    rw [hi] at k1
    cases k1
    exact k3.open (hok i _ r hki k2)
  have hds : ∀ (i d : Nat), (ass.map fun _ => 0)[i]? = some d → d = 0 := by
    intro i d hd
    rw [List.getElem?_map] at hd
    cases h : ass[i]? with
    | none => rw [h] at hd; cases hd
    | some _ => rw [h] at hd; cases hd; rfl
  have hsum : (ass.map fun _ => 0).sum = 0 := sum_zero (fun d hd => by
    obtain ⟨_, _, rfl⟩ := List.mem_map.1 hd
    rfl)
  obtain ⟨kept, B, g1, g2, g3, g4⟩ := merge_windows (win := true) h4 (ass.map fun _ => 0) (ls id) (ls id).paused
    (List.length_map ..) (fun i d as hd has => by rw [hds i d hd]; exact hopen i as has) (by rw [hsum]; rfl)
  refine ⟨kept, B, g1.trans h1, ?_, g3, h5.trans g4, h6⟩
  intro i k hi
  obtain ⟨as, r, k1, k2, k3⟩ := h3 i _ _ (start_get hi)
  have hil := (List.getElem?_eq_some_iff.1 k1).1
  have hkept : kept[i]? = some (kept[i]'(by omega)) := List.getElem?_eq_getElem _
  refine ⟨r, kept[i]'(by omega), visible 0 as, k2, hkept, ?_, fun ls' h0' => ?_⟩
  · exact g2 i 0 as _ (by rw [List.getElem?_map, k1]; rfl) k1 hkept
  · obtain ⟨w, w', l1, l2, l3⟩ := k3.run ls'
    exact ⟨w, w', l1, l2, l3.trans (open_actsOn (hopen i as k1) _ h0')⟩

/-! ## Replicas -/

theorem exists_list {β : Type} (n : Nat) (P : Nat → β → Prop) (h : ∀ i, i < n → ∃ x, P i x) :
    ∃ xs : List β, xs.length = n ∧ ∀ (i : Nat) x, xs[i]? = some x → P i x := by
  induction n generalizing P with
  | zero => exact ⟨[], rfl, fun i x h => by simp at h⟩
  | succ n ih =>
    obtain ⟨x, hx⟩ := h 0 (Nat.succ_pos n)
    obtain ⟨xs, h1, h2⟩ := ih (fun i => P (i + 1)) (fun i hi => h (i + 1) (Nat.succ_lt_succ hi))
    refine ⟨x :: xs, by rw [List.length_cons, h1], fun i y hy => ?_⟩
    cases i with
    | zero => simp at hy; exact hy ▸ hx
    | succ i => exact h2 i y (by simpa using hy)

/-- Calls on an object inside a state are calls on the state. -/
theorem calls_part {t : Ty} (ht : t.WF) {p : List U32} {s : Ty} (m : Mode) {rt : Rt} : ∀ (ops : List s.Op) {v : t.El} {u u' : s.El}
    {put : s.El → t.El} {w w' : World}, Part t v p s u put → At t rt v → CallsSync s m ops u w → calls s m ops u w = (.ok u', w') →
    ∃ ops' : List t.Op, CallsSync t m ops' v w ∧ calls t m ops' v w = (.ok (put u'), w')
  | [], v, u, u', put, w, w', h, _, _, hc => by
    cases hc
    exact ⟨[], trivial, by rw [part_self h]; rfl⟩
  | op :: ops, v, u, u', put, w, w', h, hv, ⟨ha, ho, hn⟩, hc => by
    obtain ⟨op', k1, k2, k3, _⟩ := run_part h hv op
    cases hr : s.run m op u w with
    | mk a w1 =>
      have hc' : (s.run m op u >>= fun v => calls s m ops v) w = (.ok u', w') := hc
      rw [Exec.run_bind] at hc'
      cases a with
      | error e => rw [hr] at hc'; cases hc'
      | ok u1 =>
        rw [hr] at hc'
        have h1 : t.run m op' v w = (.ok (put u1), w1) := by
          rw [k1]
          exact Exec.map_of hr
        obtain ⟨ops', l1, l2⟩ := calls_part ht m ops (part_put h u1) (at_run t ht m op' v rt w _ _ hv (k2 ha) h1) (hn u1 w1 hr) hc'
        refine ⟨op' :: ops', ⟨k2 ha, k3 ho, fun v' w'' hv' => ?_⟩, (Exec.bind_of h1).trans l2⟩
        rw [h1] at hv'
        cases hv'
        exact l1

/-- The patch follows the calls of some thread. -/
def Patch.Follows (j : Patch) : Prop :=
  (∃ m ops w w', CallsSync j.t m ops j.old w ∧ calls j.t m ops j.old w = (.ok j.new, w')) ∧
  ∀ m' y rt', At j.t rt' y → Same j.t y j.old → ∃ y', Applies (j.t.dict.handle m') y j.es y' ∧ Same j.t y' j.new

/-- The source. -/
theorem patches_source {t : Ty} (ht : t.WF) (hst : t.isState = true) {rt : Rt} : ∀ (js : List Patch) (v : t.El), At t rt v → Carried t v →
    (∀ j ∈ js, ∃ put, Part t v j.path j.t j.old put) → js.Pairwise Patch.Away → (∀ j ∈ js, j.Follows) →
    ∃ v', Replaced t v (js.map Patch.toChange) v' ∧ At t rt v' ∧ Carried t v' := by
  intro js
  induction js with
  | nil => intro v hv hc _ _ _; exact ⟨v, .nil v, hv, hc⟩
  | cons j js ih =>
    intro v hv hc hp ha hf
    obtain ⟨put, h⟩ := hp j List.mem_cons_self
    obtain ⟨⟨m, ops, w, w', h1, h2⟩, _⟩ := hf j List.mem_cons_self
    obtain ⟨ops', h3, h4⟩ := calls_part ht m ops h hv h1 h2
    obtain ⟨v1, w1, es, h5, h6, h7, _⟩ := calls_sync t ht hst m ops' v rt w hv hc h3
    rw [h4] at h5
    cases h5
    obtain ⟨haj, ha⟩ := List.pairwise_cons.1 ha
    obtain ⟨v', h8, h9⟩ := ih (put j.new) h6 h7 (fun k hk => by
      obtain ⟨put', h'⟩ := hp k (List.mem_cons_of_mem _ hk)
      obtain ⟨put2, _, _, h3, _⟩ := part_pair h h' ht (haj k hk).1 (haj k hk).2
      exact ⟨_, h3 j.new⟩) ha (fun k hk => hf k (List.mem_cons_of_mem _ hk))
    exact ⟨v', .cons h h8, h9⟩

/-- A replica, one patch after the other. -/
theorem patches_replica {t : Ty} (ht : t.WF) (hst : t.isState = true) (m : Mode) {rt : Rt} : ∀ (js : List Patch) (v v' r : t.El),
    Replaced t v (js.map Patch.toChange) v' → At t rt r → Same t r v → (∀ j ∈ js, j.Follows) →
    ∃ r', Applies (t.dict.handle m) r (js.flatMap Patch.entries) r' ∧ Same t r' v' := by
  intro js
  induction js with
  | nil => intro v v' r h _ hs _; cases h; exact ⟨r, rfl, hs⟩
  | cons j js ih =>
    intro v v' r h hr hs hf
    cases h with
    | cons h h' =>
      obtain ⟨x, putr, q1, q2, q3⟩ := part_same h hs
      obtain ⟨x', q4, q5⟩ := (hf j List.mem_cons_self).2 m x _ (at_part q1 hr) q2
      have q6 := applies_part ht m q1 q4
      obtain ⟨r', q7, q8⟩ := ih _ v' _ h' (applies_at ht hst hr q6) (q3 _ _ q5) (fun k hk => hf k (List.mem_cons_of_mem _ hk))
      exact ⟨r', q6.trans q7, q8⟩

/-- The same patches, for the objects in the replica. -/
theorem patches_transfer {t : Ty} (m : Mode) {rt : Rt} {v r : t.El} (hr : At t rt r) (hs : Same t r v) : ∀ (js : List Patch),
    (∀ j ∈ js, ∃ put, Part t v j.path j.t j.old put) → (∀ j ∈ js, j.Follows) →
    ∃ js' : List Patch, js'.map Patch.entries = js.map Patch.entries ∧ js'.map (·.path) = js.map (·.path) ∧ ∀ j ∈ js', j.Ok t m r := by
  intro js
  induction js with
  | nil => intro _ _; exact ⟨[], rfl, rfl, fun j hj => nomatch hj⟩
  | cons j js ih =>
    intro hp hf
    obtain ⟨put, h⟩ := hp j List.mem_cons_self
    obtain ⟨x, putr, q1, q2, q3⟩ := part_same h hs
    obtain ⟨x', q4, q5⟩ := (hf j List.mem_cons_self).2 m x _ (at_part q1 hr) q2
    obtain ⟨js', h1, h2, h3⟩ := ih (fun k hk => hp k (List.mem_cons_of_mem _ hk)) (fun k hk => hf k (List.mem_cons_of_mem _ hk))
    refine ⟨⟨⟨j.path, j.t, x, x'⟩, j.es⟩ :: js', ?_, ?_, ?_⟩
    · rw [List.map_cons, List.map_cons, h1]
      rfl
    · rw [List.map_cons, List.map_cons, h2]
    · intro k hk
      rcases List.mem_cons.1 hk with rfl | hk
      · exact ⟨⟨putr, q1⟩, q4⟩
      · exact h3 k hk

/-- Patches to objects apart from each other, interleaved in any way: a replica follows. -/
theorem patches_follow {t : Ty} (ht : t.WF) (hst : t.isState = true) (m : Mode) {rt : Rt} (js : List Patch) {v v' r : t.El}
    (hp : ∀ j ∈ js, ∃ put, Part t v j.path j.t j.old put) (ha : js.Pairwise Patch.Away) (hf : ∀ j ∈ js, j.Follows)
    (hv : Replaced t v (js.map Patch.toChange) v') (hr : At t rt r) (hs : Same t r v) {L : List Entry}
    (hL : Merge (js.map Patch.entries) L) : ∃ r', Applies (t.dict.handle m) r L r' ∧ Same t r' v' := by
  obtain ⟨r', h1, h2⟩ := patches_replica ht hst m js v v' r hv hr hs hf
  obtain ⟨js', k1, k2, k3⟩ := patches_transfer m hr hs js hp hf
  refine ⟨r', patches_merge ht m hL js' r r' k1.symm k3 ?_ ?_, h2⟩
  · have h3 : (js.map (·.path)).Pairwise (fun p q : List U32 => ¬ p <+: q ∧ ¬ q <+: p) := List.pairwise_map.2 ha
    rw [← k2] at h3
    exact (List.pairwise_map (R := fun p q : List U32 => ¬ p <+: q ∧ ¬ q <+: p)).1 h3
  · rw [List.flatMap_def, k1, ← List.flatMap_def]
    exact h1

/-- What a thread does alone, if replicas can follow its calls. -/
theorem worker_follows {id : Nat} {k : Worker} (hk : k.Ok false id) (hst : k.t.isState = true) (hc : Carried k.t k.v)
    (hsync : ∀ w, CallsSync k.t k.m k.ops k.v w) {r : Except Err k.t.El} {bs : List (List Entry)} (h : k.Alone id r bs) :
    ∃ (x : k.t.El) (es : List Entry), r = .ok x ∧ bs.flatten = es.map (under k.rt.path) ∧
      Patch.Follows ⟨⟨k.rt.path, k.t, k.v, x⟩, es⟩ := by
  obtain ⟨ht, hv, hid, _⟩ := hk
  obtain ⟨w, w', h1, h2, h3⟩ := h (fun _ => ⟨0, []⟩) rfl
  obtain ⟨x, w1, es, h4, _, _, h5, h6⟩ := calls_sync k.t ht hst k.m k.ops k.v k.rt w hv hc (hsync w)
  rw [show calls k.t k.m k.ops k.v w = (r, w') from h2] at h4
  cases h4
  refine ⟨x, es, rfl, ?_, ⟨k.m, k.ops, w, w', hsync w, h2⟩, h6⟩
  unfold Logged at h5
  rw [hid, h3, h1] at h5
  simpa [appended] using h5

/-- C41, replicas: threads work on different objects of one state (none inside another), without pause windows, each call one
that replicas can follow. Whatever the schedule, no thread panics; with the results in place of the old objects the source is
well addressed again; and replaying the bytes of the log makes every replica of the old state equal to the new one. -/
theorem C41_replicas_follow_partial (t : Ty) (ht : t.WF) (hst : t.isState = true) (hsh : shape t ≠ .prim)
    (hbox : ¬ (shape t = .enum ∧ isBox t = true)) (id : Nat) (v : t.El) (hv : At t ⟨id, []⟩ v) (hc : Carried t v)
    (ks : List Worker) (hk : ∀ k ∈ ks, k.Ok false id) (hsync : ∀ k ∈ ks, ∀ w, CallsSync k.t k.m k.ops k.v w)
    (hpart : ∀ k ∈ ks, ∃ put, Part t v k.rt.path k.t k.v put) (haway : ks.Pairwise fun a b => Unrelated a.rt.path b.rt.path)
    (ls : Nat → LoggerSt) (h0 : ls id = ⟨0, []⟩) (u : Threads) (hs : Threads.Steps (start ls ks) u) (hu : u.Done) :
    ∃ (cs : List Change) (v' : t.El), cs.length = ks.length ∧
      (∀ (i : Nat) k, ks[i]? = some k → ∃ x, cs[i]? = some ⟨k.rt.path, k.t, k.v, x⟩ ∧
        u.threads[i]? = some ⟨(.ret (.ok x) : Exec k.t.El)⟩) ∧
      Replaced t v cs v' ∧ At t ⟨id, []⟩ v' ∧ Carried t v' ∧ (u.loggers id).paused = 0 ∧
      ((∀ e ∈ (u.loggers id).entries, Fits e) → ∀ m m' μ id' r, At t ⟨id', []⟩ r → Same t r v →
        ∃ bytes r', (BufferLogger.mk (u.loggers id).entries).bytes m μ = .ok bytes ∧ replay t.dict m' r bytes = .ok r' [] ∧
          Same t r' v' ∧ t.eq r' v' = true) := by
  obtain ⟨bss, B, h1, h2, h3, h4, h5, h6⟩ := C41_without_windows_partial id ks hk ls (by rw [h0]) u hs hu
  -- one patch for each thread
  obtain ⟨js, hlen, hjs⟩ := exists_list ks.length (fun i (j : Patch) => ∃ k x es bs, ks[i]? = some k ∧ bss[i]? = some bs ∧
      j = ⟨⟨k.rt.path, k.t, k.v, x⟩, es⟩ ∧ u.threads[i]? = some ⟨(.ret (.ok x) : Exec k.t.El)⟩ ∧ bs.flatten = j.entries ∧ j.Follows) (by
    intro i hi
    have hki : ks[i]? = some (ks[i]'hi) := List.getElem?_eq_getElem _
    obtain ⟨r, bs, k1, k2, k3⟩ := h3 i _ hki
    have hm := List.mem_of_getElem? hki
    obtain ⟨put, hput⟩ := hpart _ hm
    obtain ⟨x, es, rfl, k4, k5⟩ := worker_follows (hk _ hm) (wf_part hput ht hst).2 (carried_part hput hc) (hsync _ hm) k3
    exact ⟨_, _, x, es, bs, hki, k2, rfl, k1, k4, k5⟩)
  have hpaths : js.map (·.path) = ks.map (·.rt.path) := by
    apply List.ext_getElem?
    intro i
    rw [List.getElem?_map, List.getElem?_map]
    cases hj : js[i]? with
    | none =>
      have : ks[i]? = none := List.getElem?_eq_none (by have := List.getElem?_eq_none_iff.1 hj; omega)
      rw [this]
      rfl
    | some j =>
      obtain ⟨k, x, es, bs, k1, _, rfl, _⟩ := hjs i j hj
      rw [k1]
      rfl
  have hentries : js.map Patch.entries = bss.map List.flatten := by
    apply List.ext_getElem?
    intro i
    rw [List.getElem?_map, List.getElem?_map]
    cases hj : js[i]? with
    | none =>
      have : bss[i]? = none := List.getElem?_eq_none (by have := List.getElem?_eq_none_iff.1 hj; omega)
      rw [this]
      rfl
    | some j =>
      obtain ⟨k, x, es, bs, _, k2, _, _, k5, _⟩ := hjs i j hj
      rw [k2]
      exact congrArg some k5.symm
  have haway' : js.Pairwise Patch.Away := by
    have h : (ks.map (·.rt.path)).Pairwise (fun p q : List U32 => ¬ p <+: q ∧ ¬ q <+: p) := List.pairwise_map.2 haway
    rw [← hpaths] at h
    exact (List.pairwise_map (R := fun p q : List U32 => ¬ p <+: q ∧ ¬ q <+: p)).1 h
  have hparts : ∀ j ∈ js, ∃ put, Part t v j.path j.t j.old put := by
    intro j hj
    obtain ⟨i, hi⟩ := List.getElem?_of_mem hj
    obtain ⟨k, x, es, bs, k1, _, rfl, _⟩ := hjs i j hi
    exact hpart k (List.mem_of_getElem? k1)
  have hfollows : ∀ j ∈ js, j.Follows := by
    intro j hj
    obtain ⟨i, hi⟩ := List.getElem?_of_mem hj
    obtain ⟨k, x, es, bs, _, _, _, _, _, k6⟩ := hjs i j hi
    exact k6
  obtain ⟨v', g1, g2, g3⟩ := patches_source ht hst js v hv hc hparts haway' hfollows
  refine ⟨js.map Patch.toChange, v', by rw [List.length_map, hlen], ?_, g1, g2, g3, by rw [h5], ?_⟩
  · intro i k hi
    have hil : i < js.length := by rw [hlen]; exact (List.getElem?_eq_some_iff.1 hi).1
    have hj : js[i]? = some (js[i]'hil) := List.getElem?_eq_getElem _
    obtain ⟨k', x, es, bs, k1, _, k3, k4, _⟩ := hjs i _ hj
    rw [hi] at k1
    cases k1
    refine ⟨x, ?_, k4⟩
    rw [List.getElem?_map, hj, k3]
    rfl
  · rw [h5, h0, List.nil_append]
    intro hfit m m' μ id' r hr hsame
    have hm := merge_flatten h4
    rw [← hentries] at hm
    obtain ⟨r', q1, q2⟩ := patches_follow ht hst m' js hparts haway' hfollows g1 hr hsame hm
    have hroot := (C31_accepted_at_root t hst hsh hbox m' ⟨id', []⟩ r hr rfl []).1
    have hrep := replay_eq t.dict m' r B.flatten hfit hroot
    rw [applyAll_of_applies q1] at hrep
    exact ⟨_, r', bytes_eq m μ ⟨B.flatten⟩ hfit, hrep, q2, eq_of_same q2 g3⟩

/-! ## A case meeting the hypotheses

The state is [[1, 2, 3], [7], []]. One thread removes an item from the middle of the first list and pops another one, one pops
from the second list. -/

def duoVal : raceTy.El := ⟨⟨0, []⟩, [⟨⟨0, [0#32]⟩, [1#8, 2#8, 3#8]⟩, ⟨⟨0, [1#32]⟩, [7#8]⟩, ⟨⟨0, [2#32]⟩, []⟩]⟩
def duo : List Worker := [⟨.list (.uint .w8), .debug, [.swapRemove 0, .pop], ⟨⟨0, [0#32]⟩, [1#8, 2#8, 3#8]⟩, ⟨0, [0#32]⟩⟩, racePop]

theorem duo_first (w : World) (v' : (Ty.list (.uint .w8)).El) (w' : World)
    (h : (Ty.list (.uint .w8)).run .debug (.swapRemove 0) ⟨⟨0, [0#32]⟩, [1#8, 2#8, 3#8]⟩ w = (.ok v', w')) :
    v' = ⟨⟨0, [0#32]⟩, [3#8, 2#8]⟩ := by
  cases h
  rfl

/-- The hypotheses of `C41_without_windows_partial` and `C41_replicas_follow_partial`. -/
example : raceTy.WF ∧ raceTy.isState = true ∧ shape raceTy ≠ .prim ∧ ¬ (shape raceTy = .enum ∧ isBox raceTy = true) ∧
    At raceTy ⟨0, []⟩ duoVal ∧ Carried raceTy duoVal ∧ (∀ k ∈ duo, k.Ok false 0) ∧
    (∀ k ∈ duo, ∀ w, CallsSync k.t k.m k.ops k.v w) ∧ (∀ k ∈ duo, ∃ put, Part raceTy duoVal k.rt.path k.t k.v put) ∧
    (duo.Pairwise fun a b => Unrelated a.rt.path b.rt.path) ∧ ∃ u, Threads.Steps (start (fun _ => ⟨0, []⟩) duo) u ∧ u.Done := by
  refine ⟨⟨rfl, rfl, trivial⟩, rfl, by decide, by decide, ⟨rfl, ?_⟩, ?_, ?_, ?_, ?_, ?_, C41_all_return _⟩
  · intro i x hx
    match i, hx with
    | 0, hx => cases hx; exact ⟨rfl, fun _ _ _ => trivial⟩
    | 1, hx => cases hx; exact ⟨rfl, fun _ _ _ => trivial⟩
    | 2, hx => cases hx; exact ⟨rfl, fun _ _ _ => trivial⟩
    | n + 3, hx => cases hx
  · exact fun _ _ _ _ => trivial
  · intro k hk
    simp only [duo, List.mem_cons, List.not_mem_nil, or_false] at hk
    rcases hk with rfl | rfl
    · exact ⟨⟨rfl, trivial⟩, ⟨rfl, fun _ _ _ => trivial⟩, rfl, (fun h => nomatch h), trivial, fun _ _ _ _ =>
        ⟨trivial, trivial, fun _ _ _ _ => trivial⟩⟩
    · exact ⟨⟨rfl, trivial⟩, ⟨rfl, fun _ _ _ => trivial⟩, rfl, trivial, trivial, fun _ _ _ _ => trivial⟩
  · intro k hk w
    simp only [duo, List.mem_cons, List.not_mem_nil, or_false] at hk
    rcases hk with rfl | rfl
    · exact ⟨(fun h => nomatch h), fun _ => ⟨by decide, fun x hx => by cases hx; decide +kernel⟩, fun v' w' h => by
        rw [duo_first w v' w' h]
        exact ⟨trivial, trivial, fun _ _ _ => trivial⟩⟩
    · exact ⟨trivial, trivial, fun _ _ _ => trivial⟩
  · intro k hk
    simp only [duo, List.mem_cons, List.not_mem_nil, or_false] at hk
    rcases hk with rfl | rfl
    · exact ⟨_, .inside (.item (i := 0) (by decide) rfl) .self⟩
    · exact ⟨_, .inside (.item (i := 1) (by decide) rfl) .self⟩
  · exact .cons (fun k hk => by
      simp only [List.mem_cons, List.not_mem_nil, or_false] at hk
      subst hk
      unfold Unrelated
      decide) (List.pairwise_singleton _ _)

end Steit
