import Verif.Props.CSharpReplay
import Verif.Props.Replay
import Verif.Lemmas.AgainTy
import Verif.Lemmas.AgainCs

/-!
# Entries a replica has already seen: property C79

A snapshot may have been taken before the log was drained, so that what the log says is in the snapshot already; or a message is
delivered twice. Updates can be repeated; the other kinds of entries cannot.
-/

namespace Steit
open Spec Prog

/-! ## Rust replicas -/

/-- The writes a log of updates makes. -/
def writeOf : Entry → Write
  | .update path value => (path, value)
  | _ => ([], [])

theorem applyEntry_got (t : Ty) (m : Mode) (v : t.El) {path : List U32} {value : Bytes} :
    (applyEntry t.dict m v (.update path value)).got = stepD t.dict m v (path, value) := rfl

theorem applyAll_runW (t : Ty) (m : Mode) : ∀ (es : List Entry), Updates es → ∀ v v', applyAll t.dict m v es = .ok v' →
    runW (stepD t.dict m) (es.map writeOf) v = some v'
  | [], _, v, v', h => by cases h; rfl
  | e :: es, hu, v, v', h => by
    obtain ⟨path, value, rfl⟩ := hu e (by simp)
    simp only [applyAll] at h
    cases he : applyEntry t.dict m v (.update path value) with
    | err _ _ => rw [he] at h; cases h
    | ok u r =>
      rw [he] at h
      exact runW_cons.2 ⟨u, stepD_ok.2 ⟨r, he⟩, applyAll_runW t m es (fun e he => hu e (by simp [he])) u v' h⟩

theorem replay_root {α : Type} {d : Dict α} {m : Mode} {v v' : α} {bs r : Bytes} (h : replay d m v bs = .ok v' r) : d.isRoot v = .ok true := by
  unfold replay at h
  cases hr : d.isRoot v with
  | error e => rw [hr] at h; cases h
  | ok b =>
    cases b with
    | false => rw [hr] at h; cases h
    | true => rfl

theorem replay_applyAll {α : Type} {d : Dict α} {m : Mode} {v v' : α} {es : List Entry} {r : Bytes} (hfit : ∀ e ∈ es, Fits e) :
    replay d m v (es.flatMap entryBytes) = .ok v' r → d.isRoot v = .ok true ∧ applyAll d m v es = .ok v' ∧ r = [] := by
  intro h
  have hr := replay_root h
  refine ⟨hr, ?_⟩
  rw [replay_eq d m v es hfit hr] at h
  cases ha : applyAll d m v es with
  | error x => rw [ha] at h; cases h
  | ok u => rw [ha] at h; cases h; exact ⟨rfl, rfl⟩

/-- C79, Rust: a replica replays a log of updates, and then replays the whole log again. If the second replay goes through, the replica
is left exactly as it was after the first. -/
theorem C79_redo (t : Ty) (ht : t.WF) (hs : t.isState = true) (m m' : Mode) (μ : Nat → Mem) (rt : Rt) (es : List Entry) (hu : Updates es)
    (hfit : ∀ e ∈ es, Fits e) (log : Bytes) (hlog : (BufferLogger.mk es).bytes m' μ = .ok log) (v v1 v2 : t.El) (r1 r2 : Bytes)
    (hv : At t rt v) (h1 : replay t.dict m v log = .ok v1 r1) (h2 : replay t.dict m v1 log = .ok v2 r2) : v2 = v1 := by
  rw [bytes_eq m' μ ⟨es⟩ hfit] at hlog
  cases hlog
  obtain ⟨-, h1, -⟩ := replay_applyAll hfit h1
  obtain ⟨-, h2, -⟩ := replay_applyAll hfit h2
  exact redoTy t ht hs m rt _ v v1 v2 hv (applyAll_runW t m es hu _ _ h1) (applyAll_runW t m es hu _ _ h2)

/-- C79, Rust: a replica that has replayed `es` is sent `es` again, and then entries `later` it has not seen, of any kind. If all of it
goes through, the replica is left exactly as if it had been sent `later` alone. -/
theorem C79_overlap (t : Ty) (ht : t.WF) (hs : t.isState = true) (m m' : Mode) (μ μ' : Nat → Mem) (rt : Rt) (es later : List Entry)
    (hu : Updates es) (hfit : ∀ e ∈ es, Fits e) (hfit' : ∀ e ∈ later, Fits e) (log log' new : Bytes)
    (hlog : (BufferLogger.mk es).bytes m' μ = .ok log) (hlog' : (BufferLogger.mk (es ++ later)).bytes m' μ' = .ok log')
    (hnew : (BufferLogger.mk later).bytes m' μ' = .ok new) (v v1 v2 : t.El) (r1 r2 : Bytes) (hv : At t rt v)
    (h1 : replay t.dict m v log = .ok v1 r1) (h2 : replay t.dict m v1 log' = .ok v2 r2) : replay t.dict m v1 new = .ok v2 r2 := by
  have hfit2 : ∀ e ∈ es ++ later, Fits e := fun e he => (List.mem_append.1 he).elim (hfit e) (hfit' e)
  rw [bytes_eq m' μ ⟨es⟩ hfit] at hlog
  rw [bytes_eq m' μ' ⟨es ++ later⟩ hfit2] at hlog'
  rw [bytes_eq m' μ' ⟨later⟩ hfit'] at hnew
  cases hlog
  cases hlog'
  cases hnew
  obtain ⟨-, h1, -⟩ := replay_applyAll hfit h1
  obtain ⟨hr, h4, rfl⟩ := replay_applyAll hfit2 h2
  rw [applyAll_append] at h4
  cases h3 : applyAll t.dict m v1 es with
  | error x => rw [h3] at h4; cases h4
  | ok u =>
    rw [h3] at h4
    have hu1 : u = v1 := redoTy t ht hs m rt _ v v1 u hv (applyAll_runW t m es hu _ _ h1) (applyAll_runW t m es hu _ _ h3)
    subst hu1
    change applyAll t.dict m u later = .ok v2 at h4
    show replay t.dict m u (later.flatMap entryBytes) = _
    rw [replay_eq _ _ _ _ hfit' hr, h4]
    rfl

theorem redo_one (t : Ty) (ht : t.WF) (hs : t.isState = true) (m : Mode) (rt : Rt) {v v1 : t.El} {r : Bytes} {path : List U32} {value : Bytes}
    (hv : At t rt v) (h : applyEntry t.dict m v (.update path value) = .ok v1 r) :
    ∃ r', applyEntry t.dict m v1 (.update path value) = .ok v1 r' := by
  have h1 : stepD t.dict m v (path, value) = some v1 := stepD_ok.2 ⟨r, h⟩
  obtain ⟨v2, h2⟩ := againTy t ht hs m rt v (path, value) v1 hv h1
  have : v2 = v1 := redoTy t ht hs m rt [(path, value)] v v1 v2 hv (runW_cons.2 ⟨v1, h1, rfl⟩) (runW_cons.2 ⟨v2, h2, rfl⟩)
  subst this
  exact stepD_ok.1 h2

theorem repeats_applyAll (t : Ty) (ht : t.WF) (hs : t.isState = true) (m : Mode) (rt : Rt) {es es' : List Entry} (h : Repeats es es') :
    Updates es → ∀ v, At t rt v → applyAll t.dict m v es' = applyAll t.dict m v es := by
  induction h with
  | done => intro _ v _; rfl
  | @next e es es' h ih =>
    intro hu v hv
    simp only [applyAll]
    cases he : applyEntry t.dict m v e with
    | err _ _ => rfl
    | ok u r =>
      obtain ⟨path, value, rfl⟩ := hu e (by simp)
      exact ih (fun e he => hu e (by simp [he])) u (keeps_at ht hs v (path, value) u hv (stepD_ok.2 ⟨r, he⟩))
  | @again e es es' h ih =>
    intro hu v hv
    obtain ⟨path, value, rfl⟩ := hu e (by simp)
    simp only [applyAll]
    cases he : applyEntry t.dict m v (.update path value) with
    | err _ _ => rfl
    | ok u r =>
      simp only
      rw [ih hu u (keeps_at ht hs v (path, value) u hv (stepD_ok.2 ⟨r, he⟩))]
      obtain ⟨r', h'⟩ := redo_one t ht hs m rt hv he
      simp only [applyAll, h']

theorem repeats_mem {es es' : List Entry} (h : Repeats es es') : ∀ e ∈ es', e ∈ es := by
  induction h with
  | done => exact fun e he => he
  | next _ ih =>
    intro e he
    cases List.mem_cons.1 he with
    | inl h => simp [h]
    | inr h => exact List.mem_cons_of_mem _ (ih e h)
  | again _ ih =>
    intro e he
    cases List.mem_cons.1 he with
    | inl h => simp [h]
    | inr h => exact ih e h

/-- C79, Rust: updates arrive in order, each any number of times before the next. The replica ends as if each had arrived once, also
where an entry is refused. -/
theorem C79_repeats (t : Ty) (ht : t.WF) (hs : t.isState = true) (m m' : Mode) (μ μ' : Nat → Mem) (rt : Rt) (es es' : List Entry)
    (hu : Updates es) (hrep : Repeats es es') (hfit : ∀ e ∈ es, Fits e) (log log' : Bytes) (hlog : (BufferLogger.mk es).bytes m' μ = .ok log)
    (hlog' : (BufferLogger.mk es').bytes m' μ' = .ok log') (v : t.El) (hv : At t rt v) :
    replay t.dict m v log' = replay t.dict m v log := by
  have hfit' : ∀ e ∈ es', Fits e := fun e he => hfit e (repeats_mem hrep e he)
  rw [bytes_eq m' μ ⟨es⟩ hfit] at hlog
  rw [bytes_eq m' μ' ⟨es'⟩ hfit'] at hlog'
  cases hlog
  cases hlog'
  by_cases hr : t.dict.isRoot v = .ok true
  · show replay t.dict m v (es'.flatMap entryBytes) = replay t.dict m v (es.flatMap entryBytes)
    rw [replay_eq _ _ _ _ hfit hr, replay_eq _ _ _ _ hfit' hr, repeats_applyAll t ht hs m rt hrep hu v hv]
  · unfold replay
    cases hb : t.dict.isRoot v with
    | error e => rfl
    | ok b =>
      cases b with
      | false => rfl
      | true => exact absurd hb hr

/-! ## C# clients -/

theorem csReplayLoop_eq (ρ : Bytes → Str) (t : Ty) : ∀ (es : List Entry) (c : t.Cs) (fuel : Nat), (∀ e ∈ es, CsFits e) →
    (es.flatMap entryBytes).length ≤ fuel → untilEnd (t.csReplayStep ρ) fuel c (es.flatMap entryBytes) = csApplyAll ρ t c es
  | [], c, fuel, _, _ => by cases fuel <;> rfl
  | e :: es, c, fuel, h, hf => by
    have hne := entryBytes_ne e
    have hp : 0 < (entryBytes e).length := List.length_pos_iff.2 hne
    simp only [List.flatMap_cons, List.length_append] at hf ⊢
    cases fuel with
    | zero => omega
    | succ fuel =>
      have hcons : ∃ b bs, entryBytes e ++ es.flatMap entryBytes = b :: bs := by
        cases hb : entryBytes e with
        | nil => exact absurd hb hne
        | cons b bs => exact ⟨b, _, rfl⟩
      cases he : t.csReplayEntry ρ c e with
      | error x =>
        have h1 := csReplayStep_throws ρ t c e (h e (by simp)) x he (es.flatMap entryBytes)
        simp only [csApplyAll, he]
        obtain ⟨b, bs, hb⟩ := hcons
        rw [hb] at h1 ⊢
        simp only [untilEnd, h1, Bind.bind, Except.bind]
      | ok c' =>
        have h1 := csReplayStep_entry ρ t c c' e (h e (by simp)) he (es.flatMap entryBytes)
        have ih := csReplayLoop_eq ρ t es c' fuel (fun e he => h e (by simp [he])) (by omega)
        simp only [csApplyAll, he]
        obtain ⟨b, bs, hb⟩ := hcons
        rw [hb] at h1 ⊢
        simp only [untilEnd, h1, Bind.bind, Except.bind]
        exact ih

theorem csReplay_eq (ρ : Bytes → Str) (t : Ty) (es : List Entry) (c : t.Cs) (h : ∀ e ∈ es, CsFits e) :
    t.csReplay ρ c (es.flatMap entryBytes) = csApplyAll ρ t c es := csReplayLoop_eq ρ t es c _ h (Nat.le_refl _)

theorem fits_of {e : Entry} (h : CsFits e) : Fits e := by unfold CsFits at h; unfold Fits; omega

theorem csApplyAll_runW (ρ : Bytes → Str) (t : Ty) : ∀ (es : List Entry), Updates es → ∀ c c', csApplyAll ρ t c es = .ok c' →
    runW (stepC ρ t) (es.map writeOf) c = some c'
  | [], _, c, c', h => by cases h; rfl
  | e :: es, hu, c, c', h => by
    obtain ⟨path, value, rfl⟩ := hu e (by simp)
    simp only [csApplyAll] at h
    cases he : t.csReplayEntry ρ c (.update path value) with
    | error x => rw [he] at h; cases h
    | ok u =>
      rw [he] at h
      exact runW_cons.2 ⟨u, toOption_some.2 he, csApplyAll_runW ρ t es (fun e he => hu e (by simp [he])) u c' h⟩

/-- C79, C#: as `C79_redo`; a dictionary may list its entries in another order after the second replay. -/
theorem C79_client_redo (t : Ty) (ρ : Bytes → Str) (m : Mode) (μ : Nat → Mem) (es : List Entry) (hu : Updates es)
    (hfit : ∀ e ∈ es, CsFits e) (log : Bytes) (hlog : (BufferLogger.mk es).bytes m μ = .ok log) (c c1 c2 : t.Cs)
    (h1 : t.csReplay ρ c log = .ok c1) (h2 : t.csReplay ρ c1 log = .ok c2) : Alike t c2 c1 := by
  rw [bytes_eq m μ ⟨es⟩ fun e he => fits_of (hfit e he)] at hlog
  cases hlog
  change t.csReplay ρ c (es.flatMap entryBytes) = _ at h1
  change t.csReplay ρ c1 (es.flatMap entryBytes) = _ at h2
  rw [csReplay_eq ρ t es _ hfit] at h1 h2
  exact redoTyC ρ t _ c c1 c2 trivial (csApplyAll_runW ρ t es hu _ _ h1) (csApplyAll_runW ρ t es hu _ _ h2)

/-- C79, C#: as `C79_overlap`, up to the order of dictionaries. -/
theorem C79_client_overlap (t : Ty) (ρ : Bytes → Str) (m : Mode) (μ μ' : Nat → Mem) (es later : List Entry) (hu : Updates es)
    (hfit : ∀ e ∈ es, CsFits e) (hfit' : ∀ e ∈ later, CsFits e) (log log' new : Bytes) (hlog : (BufferLogger.mk es).bytes m μ = .ok log)
    (hlog' : (BufferLogger.mk (es ++ later)).bytes m μ' = .ok log') (hnew : (BufferLogger.mk later).bytes m μ' = .ok new) (c c1 c2 : t.Cs)
    (h1 : t.csReplay ρ c log = .ok c1) (h2 : t.csReplay ρ c1 log' = .ok c2) :
    ∃ c2', t.csReplay ρ c1 new = .ok c2' ∧ Alike t c2 c2' := by
  have hfit2 : ∀ e ∈ es ++ later, CsFits e := fun e he => (List.mem_append.1 he).elim (hfit e) (hfit' e)
  rw [bytes_eq m μ ⟨es⟩ fun e he => fits_of (hfit e he)] at hlog
  rw [bytes_eq m μ' ⟨es ++ later⟩ fun e he => fits_of (hfit2 e he)] at hlog'
  rw [bytes_eq m μ' ⟨later⟩ fun e he => fits_of (hfit' e he)] at hnew
  cases hlog
  cases hlog'
  cases hnew
  change t.csReplay ρ c (es.flatMap entryBytes) = _ at h1
  change t.csReplay ρ c1 ((es ++ later).flatMap entryBytes) = _ at h2
  change ∃ c2', t.csReplay ρ c1 (later.flatMap entryBytes) = _ ∧ _
  rw [csReplay_eq ρ t _ _ hfit] at h1
  rw [csReplay_eq ρ t _ _ hfit2, csApplyAll_append] at h2
  rw [csReplay_eq ρ t _ _ hfit']
  cases h3 : csApplyAll ρ t c1 es with
  | error x => rw [h3] at h2; cases h2
  | ok u =>
    rw [h3] at h2
    change csApplyAll ρ t u later = .ok c2 at h2
    have hu1 : Alike t u c1 := redoTyC ρ t _ c c1 u trivial (csApplyAll_runW ρ t es hu _ _ h1) (csApplyAll_runW ρ t es hu _ _ h3)
    have h4 := applyAll_alike (ρ := ρ) t later u c1 hu1
    rw [h2] at h4
    cases h5 : csApplyAll ρ t c1 later with
    | error x => rw [h5] at h4; exact h4.elim
    | ok c2' => rw [h5] at h4; exact ⟨c2', rfl, h4⟩

theorem exRel_trans {t : Ty} {x y z : Except Exn t.Cs} (h : ExRel (Alike t) x y) (h' : ExRel (Alike t) y z) : ExRel (Alike t) x z := by
  cases x <;> cases y <;> cases z <;> first | exact h.elim | exact h'.elim | skip
  · exact Eq.trans h h'
  · exact alike_trans t _ _ _ h h'

theorem exRel_refl {t : Ty} (x : Except Exn t.Cs) : ExRel (Alike t) x x := by
  cases x with
  | error _ => rfl
  | ok c => exact alike_refl t c

theorem repeats_csApplyAll (ρ : Bytes → Str) (t : Ty) {es es' : List Entry} (h : Repeats es es') :
    Updates es → ∀ c, ExRel (Alike t) (csApplyAll ρ t c es') (csApplyAll ρ t c es) := by
  induction h with
  | done => intro _ c; exact exRel_refl _
  | @next e es es' h ih =>
    intro hu c
    simp only [csApplyAll]
    cases he : t.csReplayEntry ρ c e with
    | error x => rfl
    | ok u => exact ih (fun e he => hu e (by simp [he])) u
  | @again e es es' h ih =>
    intro hu c
    obtain ⟨path, value, rfl⟩ := hu e (by simp)
    simp only [csApplyAll]
    cases he : t.csReplayEntry ρ c (.update path value) with
    | error x => rfl
    | ok u =>
      refine exRel_trans (ih hu u) ?_
      obtain ⟨u', hu'⟩ := entry_again t path value c u he
      have ha : Alike t u' u := redoTyC ρ t [(path, value)] c u u' trivial (runW_cons.2 ⟨u, toOption_some.2 he, rfl⟩)
        (runW_cons.2 ⟨u', toOption_some.2 hu', rfl⟩)
      simp only [csApplyAll]
      rw [show t.csReplayEntry ρ u (.update path value) = .ok u' from hu']
      exact applyAll_alike t es u' u ha

/-- C79, C#: as `C79_repeats`, up to the order of dictionaries; the same exception is thrown, if one is. -/
theorem C79_client_repeats (t : Ty) (ρ : Bytes → Str) (m : Mode) (μ μ' : Nat → Mem) (es es' : List Entry) (hu : Updates es)
    (hrep : Repeats es es') (hfit : ∀ e ∈ es, CsFits e) (log log' : Bytes) (hlog : (BufferLogger.mk es).bytes m μ = .ok log)
    (hlog' : (BufferLogger.mk es').bytes m μ' = .ok log') (c : t.Cs) :
    match t.csReplay ρ c log', t.csReplay ρ c log with
    | .ok c', .ok c'' => Alike t c' c''
    | .error x, .error x' => x = x'
    | _, _ => False := by
  have hfit' : ∀ e ∈ es', CsFits e := fun e he => hfit e (repeats_mem hrep e he)
  rw [bytes_eq m μ ⟨es⟩ fun e he => fits_of (hfit e he)] at hlog
  rw [bytes_eq m μ' ⟨es'⟩ fun e he => fits_of (hfit' e he)] at hlog'
  cases hlog
  cases hlog'
  have h := repeats_csApplyAll ρ t hrep hu c
  rw [← csReplay_eq ρ t es c hfit, ← csReplay_eq ρ t es' c hfit'] at h
  revert h
  show ExRel (Alike t) (t.csReplay ρ c (es'.flatMap entryBytes)) (t.csReplay ρ c (es.flatMap entryBytes)) → match
    t.csReplay ρ c (es'.flatMap entryBytes), t.csReplay ρ c (es.flatMap entryBytes) with
    | .ok c', .ok c'' => Alike t c' c''
    | .error x, .error x' => x = x'
    | _, _ => False
  cases t.csReplay ρ c (es'.flatMap entryBytes) <;> cases t.csReplay ρ c (es.flatMap entryBytes) <;> exact fun h => h

/-- C79, C#: the order of a dictionary is not part of the data: clients that are `Alike` show the same. -/
theorem C79_client_shows (t : Ty) (v : t.El) (c c' : t.Cs) (h : Shows t v c) (h' : Alike t c' c) : Shows t v c' :=
  shows_alike t v c c' h h'

/-! ## Where it ends -/

theorem replayed {t : Ty} {m : Mode} {v : t.El} {es : List Entry} {out : Res t.El} (hfit : ∀ e ∈ es, CsFits e)
    (hr : t.dict.isRoot v = .ok true) (h : outcome (applyAll t.dict m v es) = out) : replay t.dict m v (es.flatMap entryBytes) = out :=
  (replay_eq t.dict m v es (fun e he => fits_of (hfit e he)) hr).trans h

/-- C79 is false of pushes: the item is there twice, on a Rust replica and on a client, and nothing is reported. -/
theorem C79_push_false (m m' : Mode) (μ : Nat → Mem) (ρ : Bytes → Str) :
    ∃ log, (BufferLogger.mk [.listPush [] [7#8]]).bytes m' μ = .ok log ∧
      replay (Ty.list (.uint .w8)).dict m ⟨⟨9, []⟩, []⟩ log = .ok ⟨⟨9, []⟩, [7#8]⟩ [] ∧
      replay (Ty.list (.uint .w8)).dict m ⟨⟨9, []⟩, [7#8]⟩ log = .ok ⟨⟨9, []⟩, [7#8, 7#8]⟩ [] ∧
      (Ty.list (.uint .w8)).csReplay ρ [] log = .ok [7#8] ∧ (Ty.list (.uint .w8)).csReplay ρ [7#8] log = .ok [7#8, 7#8] := by
  have hfit : ∀ e ∈ [Entry.listPush [] [7#8]], CsFits e := by unfold CsFits; decide +kernel
  refine ⟨_, bytes_eq m' μ ⟨_⟩ fun e he => fits_of (hfit e he), ?_, ?_, ?_, ?_⟩
  · exact replayed hfit rfl (by cases m <;> rfl)
  · exact replayed hfit rfl (by cases m <;> rfl)
  · exact (csReplay_eq ρ (.list (.uint .w8)) _ _ hfit).trans rfl
  · exact (csReplay_eq ρ (.list (.uint .w8)) _ _ hfit).trans rfl

/-- C79 is false of pops: another item goes, on both sides, and nothing is reported. -/
theorem C79_pop_false (m m' : Mode) (μ : Nat → Mem) (ρ : Bytes → Str) :
    ∃ log, (BufferLogger.mk [.listPop []]).bytes m' μ = .ok log ∧
      replay (Ty.list (.uint .w8)).dict m ⟨⟨9, []⟩, [1#8, 2#8]⟩ log = .ok ⟨⟨9, []⟩, [1#8]⟩ [] ∧
      replay (Ty.list (.uint .w8)).dict m ⟨⟨9, []⟩, [1#8]⟩ log = .ok ⟨⟨9, []⟩, []⟩ [] ∧
      (Ty.list (.uint .w8)).csReplay ρ [1#8, 2#8] log = .ok [1#8] ∧ (Ty.list (.uint .w8)).csReplay ρ [1#8] log = .ok [] := by
  have hfit : ∀ e ∈ [Entry.listPop []], CsFits e := by unfold CsFits; decide +kernel
  refine ⟨_, bytes_eq m' μ ⟨_⟩ fun e he => fits_of (hfit e he), ?_, ?_, ?_, ?_⟩
  · exact replayed hfit rfl (by cases m <;> rfl)
  · exact replayed hfit rfl (by cases m <;> rfl)
  · exact (csReplay_eq ρ (.list (.uint .w8)) _ _ hfit).trans rfl
  · exact (csReplay_eq ρ (.list (.uint .w8)) _ _ hfit).trans rfl

/-- C79 is false of removals: the second one is refused, on both sides, and with it whatever follows in the log. -/
theorem C79_remove_false (m m' : Mode) (μ : Nat → Mem) (ρ : Bytes → Str) :
    ∃ log, (BufferLogger.mk [.mapRemove [] 3#32]).bytes m' μ = .ok log ∧
      replay (Ty.map .u8 (.uint .w8)).dict m ⟨⟨9, []⟩, [(3#32, 1#8)]⟩ log = .ok ⟨⟨9, []⟩, []⟩ [] ∧
      replay (Ty.map .u8 (.uint .w8)).dict m ⟨⟨9, []⟩, []⟩ log = .err ⟨⟨9, []⟩, []⟩ .invalidData ∧
      (Ty.map .u8 (.uint .w8)).csReplay ρ [(3#32, 1#8)] log = .ok [] ∧ (Ty.map .u8 (.uint .w8)).csReplay ρ [] log = .error .keyNotFound := by
  have hfit : ∀ e ∈ [Entry.mapRemove [] 3#32], CsFits e := by unfold CsFits; decide +kernel
  refine ⟨_, bytes_eq m' μ ⟨_⟩ fun e he => fits_of (hfit e he), ?_, ?_, ?_, ?_⟩
  · exact replayed hfit rfl (by cases m <;> rfl)
  · exact replayed hfit rfl (by cases m <;> rfl)
  · exact (csReplay_eq ρ (.map .u8 (.uint .w8)) _ _ hfit).trans rfl
  · exact (csReplay_eq ρ (.map .u8 (.uint .w8)) _ _ hfit).trans rfl

/-- `#[derive(State)] enum E { #[steit(tag = 0)] A { #[steit(tag = 0)] x: u8 }, #[steit(tag = 1)] B }` -/
abbrev againEnum : Ty := .enum true true (.cons 0#32 {} (.uint .w8) .nil) (.cons 1#32 true .nil .nil)

/-- C79: the second replay of updates may be refused by a Rust replica, although each of them can be repeated by itself: a field of a
variant is written, then the enum switches to another variant. The replica stays as it is, but gets nothing of what follows in the log.
A C# client ignores the first entry and follows. -/
theorem C79_redo_refused (m m' : Mode) (μ : Nat → Mem) (ρ : Bytes → Str) :
    ∃ log, (BufferLogger.mk [.update [0#32, 0#32] [7#8], .update [] [1#8]]).bytes m' μ = .ok log ∧
      replay againEnum.dict m ⟨⟨9, [0#32]⟩, .inl (3#8, ())⟩ log = .ok ⟨⟨9, [1#32]⟩, .inr (.inl ())⟩ [] ∧
      replay againEnum.dict m ⟨⟨9, [1#32]⟩, .inr (.inl ())⟩ log = .err ⟨⟨9, [1#32]⟩, .inr (.inl ())⟩ .invalidData ∧
      againEnum.csReplay ρ (.inl (3#8, ())) log = .ok (.inr (.inl ())) ∧
      againEnum.csReplay ρ (.inr (.inl ())) log = .ok (.inr (.inl ())) := by
  have hfit : ∀ e ∈ [Entry.update [0#32, 0#32] [7#8], .update [] [1#8]], CsFits e := by unfold CsFits; decide +kernel
  refine ⟨_, bytes_eq m' μ ⟨_⟩ fun e he => fits_of (hfit e he), ?_, ?_, ?_, ?_⟩
  · exact replayed hfit rfl (by cases m <;> rfl)
  · exact replayed hfit rfl (by cases m <;> rfl)
  · exact (csReplay_eq ρ againEnum _ _ hfit).trans rfl
  · exact (csReplay_eq ρ againEnum _ _ hfit).trans rfl

/-! ## Not vacuous -/

/-- `#[derive(State)] struct S { #[steit(tag = 0)] a: u8, #[steit(tag = 1)] es: Map<u8, E> }` -/
abbrev againTyE : Ty := .struct true true (.cons 0#32 {} (.uint .w8) (.cons 1#32 {} (.map .u8 againEnum) .nil))

theorem againTyE_wf : againTyE.WF :=
  ⟨by decide, by decide, fun _ => rfl, trivial, by decide, fun _ => rfl,
    ⟨rfl, by decide, ⟨by decide, fun _ => rfl, trivial, trivial⟩, by decide, by decide, by decide, by decide, trivial, trivial⟩, trivial⟩

/-- Field 0 is written, then key 5 is written twice: a new entry, then its field. -/
abbrev againLog : List Entry := [.update [0#32] [9#8], .update [1#32, 5#32] [0#8, 0#8, 4#8], .update [1#32, 5#32, 0#32, 0#32] [6#8]]

theorem againLog_updates : Updates againLog := by
  intro e he
  simp only [againLog, List.mem_cons, List.not_mem_nil, or_false] at he
  rcases he with rfl | rfl | rfl
  · exact ⟨_, _, rfl⟩
  · exact ⟨_, _, rfl⟩
  · exact ⟨_, _, rfl⟩

theorem againLog_fits : ∀ e ∈ againLog, CsFits e := by unfold CsFits; decide +kernel

/-- A replica replays `againLog` twice; the second time the map is not empty any more, and nothing changes. -/
example (μ : Nat → Mem) : ∃ log v1 v2, (BufferLogger.mk againLog).bytes .debug μ = .ok log ∧
    replay againTyE.dict .release (againTyE.dict.withRuntime ⟨9, []⟩) log = .ok v1 [] ∧ replay againTyE.dict .release v1 log = .ok v2 [] ∧
    v2 = v1 ∧ v1 ≠ againTyE.dict.withRuntime ⟨9, []⟩ := by
  have hlog := bytes_eq .debug μ ⟨againLog⟩ fun e he => fits_of (againLog_fits e he)
  have h1 : replay againTyE.dict .release (againTyE.dict.withRuntime ⟨9, []⟩) (againLog.flatMap entryBytes) =
      .ok ⟨⟨9, []⟩, (9#8, ⟨⟨9, [1#32]⟩, [(5#32, ⟨⟨9, [1#32, 5#32, 0#32]⟩, .inl (6#8, ())⟩)]⟩, ())⟩ [] := replayed againLog_fits rfl rfl
  have h2 : replay againTyE.dict .release ⟨⟨9, []⟩, (9#8, ⟨⟨9, [1#32]⟩, [(5#32, ⟨⟨9, [1#32, 5#32, 0#32]⟩, .inl (6#8, ())⟩)]⟩, ())⟩
      (againLog.flatMap entryBytes) =
      .ok ⟨⟨9, []⟩, (9#8, ⟨⟨9, [1#32]⟩, [(5#32, ⟨⟨9, [1#32, 5#32, 0#32]⟩, .inl (6#8, ())⟩)]⟩, ())⟩ [] := replayed againLog_fits rfl rfl
  refine ⟨_, _, _, hlog, h1, h2, C79_redo againTyE againTyE_wf rfl .release .debug μ ⟨9, []⟩ againLog againLog_updates
    (fun e he => fits_of (againLog_fits e he)) _ hlog _ _ _ _ _ ((anyLaw againTyE againTyE_wf).at_new ⟨9, []⟩) h1 h2, ?_⟩
  intro h
  have := congrArg (fun v => v.fields.1) h
  revert this
  decide

/-- A replica that has seen `againLog` is sent it again together with a removal it has not seen. -/
example (μ μ' : Nat → Mem) : ∃ log log' new v1 v2, (BufferLogger.mk againLog).bytes .debug μ = .ok log ∧
    (BufferLogger.mk (againLog ++ [.mapRemove [1#32] 5#32])).bytes .debug μ' = .ok log' ∧
    (BufferLogger.mk [.mapRemove [1#32] 5#32]).bytes .debug μ' = .ok new ∧
    replay againTyE.dict .release (againTyE.dict.withRuntime ⟨9, []⟩) log = .ok v1 [] ∧
    replay againTyE.dict .release v1 log' = .ok v2 [] ∧ replay againTyE.dict .release v1 new = .ok v2 [] ∧ v2 ≠ v1 := by
  have hf : ∀ e ∈ [Entry.mapRemove [1#32] 5#32], CsFits e := by unfold CsFits; decide +kernel
  have hf2 : ∀ e ∈ againLog ++ [Entry.mapRemove [1#32] 5#32], CsFits e := by unfold CsFits; decide +kernel
  have hlog := bytes_eq .debug μ ⟨againLog⟩ fun e he => fits_of (againLog_fits e he)
  have hlog' := bytes_eq .debug μ' ⟨againLog ++ [Entry.mapRemove [1#32] 5#32]⟩ fun e he => fits_of (hf2 e he)
  have hnew := bytes_eq .debug μ' ⟨[Entry.mapRemove [1#32] 5#32]⟩ fun e he => fits_of (hf e he)
  have h1 : replay againTyE.dict .release (againTyE.dict.withRuntime ⟨9, []⟩) (againLog.flatMap entryBytes) =
      .ok ⟨⟨9, []⟩, (9#8, ⟨⟨9, [1#32]⟩, [(5#32, ⟨⟨9, [1#32, 5#32, 0#32]⟩, .inl (6#8, ())⟩)]⟩, ())⟩ [] := replayed againLog_fits rfl rfl
  have h2 : replay againTyE.dict .release ⟨⟨9, []⟩, (9#8, ⟨⟨9, [1#32]⟩, [(5#32, ⟨⟨9, [1#32, 5#32, 0#32]⟩, .inl (6#8, ())⟩)]⟩, ())⟩
      ((againLog ++ [Entry.mapRemove [1#32] 5#32]).flatMap entryBytes) = .ok ⟨⟨9, []⟩, (9#8, ⟨⟨9, [1#32]⟩, []⟩, ())⟩ [] := replayed hf2 rfl rfl
  refine ⟨_, _, _, _, _, hlog, hlog', hnew, h1, h2, C79_overlap againTyE againTyE_wf rfl .release .debug μ μ' ⟨9, []⟩ againLog _ againLog_updates
    (fun e he => fits_of (againLog_fits e he)) (fun e he => fits_of (hf e he)) _ _ _ hlog hlog' hnew _ _ _ _ _
    ((anyLaw againTyE againTyE_wf).at_new ⟨9, []⟩) h1 h2, ?_⟩
  intro h
  have := congrArg (fun v => v.fields.2.1.entries.length) h
  revert this
  decide

/-- The first and the last entry of `againLog` arrive more than once. -/
example : Repeats againLog [.update [0#32] [9#8], .update [0#32] [9#8], .update [0#32] [9#8], .update [1#32, 5#32] [0#8, 0#8, 4#8],
    .update [1#32, 5#32, 0#32, 0#32] [6#8], .update [1#32, 5#32, 0#32, 0#32] [6#8]] :=
  .again (.again (.next (.next (.again (.next .done)))))

example (m : Mode) (μ μ' : Nat → Mem) (es' : List Entry) (h : Repeats againLog es') : ∃ log log', (BufferLogger.mk againLog).bytes .debug μ = .ok log ∧
    (BufferLogger.mk es').bytes .debug μ' = .ok log' ∧
    replay againTyE.dict m (againTyE.dict.withRuntime ⟨9, []⟩) log' = replay againTyE.dict m (againTyE.dict.withRuntime ⟨9, []⟩) log :=
  have hlog := bytes_eq .debug μ ⟨againLog⟩ fun e he => fits_of (againLog_fits e he)
  have hlog' := bytes_eq .debug μ' ⟨es'⟩ fun e he => fits_of (againLog_fits e (repeats_mem h e he))
  ⟨_, _, hlog, hlog', C79_repeats againTyE againTyE_wf rfl m .debug μ μ' ⟨9, []⟩ againLog es' againLog_updates h
    (fun e he => fits_of (againLog_fits e he)) _ _ hlog hlog' _ ((anyLaw againTyE againTyE_wf).at_new ⟨9, []⟩)⟩

/-- A client that replays `againLog` twice, with another key in its map. The order of the dictionary changes, the data does not. -/
example (ρ : Bytes → Str) (μ : Nat → Mem) : ∃ log c1 c2, (BufferLogger.mk (againLog ++ [.update [1#32, 8#32] [1#8]])).bytes .debug μ = .ok log ∧
    againTyE.csReplay ρ againTyE.csNew log = .ok c1 ∧ againTyE.csReplay ρ c1 log = .ok c2 ∧ Alike againTyE c2 c1 := by
  have hf2 : ∀ e ∈ againLog ++ [Entry.update [1#32, 8#32] [1#8]], CsFits e := by unfold CsFits; decide +kernel
  have hu : Updates (againLog ++ [Entry.update [1#32, 8#32] [1#8]]) := by
    intro e he
    rcases List.mem_append.1 he with he | he
    · exact againLog_updates e he
    · exact ⟨_, _, List.mem_singleton.1 he⟩
  have hlog := bytes_eq .debug μ ⟨againLog ++ [Entry.update [1#32, 8#32] [1#8]]⟩ fun e he => fits_of (hf2 e he)
  have h1 : againTyE.csReplay ρ againTyE.csNew ((againLog ++ [Entry.update [1#32, 8#32] [1#8]]).flatMap entryBytes) =
      .ok (9#8, [(8#32, .inr (.inl ())), (5#32, .inl (6#8, ()))], ()) := (csReplay_eq ρ againTyE _ _ hf2).trans rfl
  have h2 : againTyE.csReplay ρ (9#8, [(8#32, .inr (.inl ())), (5#32, .inl (6#8, ()))], ())
      ((againLog ++ [Entry.update [1#32, 8#32] [1#8]]).flatMap entryBytes) =
      .ok (9#8, [(8#32, .inr (.inl ())), (5#32, .inl (6#8, ()))], ()) := (csReplay_eq ρ againTyE _ _ hf2).trans rfl
  exact ⟨_, _, _, hlog, h1, h2, C79_client_redo againTyE ρ .debug μ _ hu hf2 _ hlog _ _ _ h1 h2⟩

/-- The client that has seen `againLog` is sent it again together with a removal. -/
example (ρ : Bytes → Str) (μ μ' : Nat → Mem) : ∃ log log' new c1 c2, (BufferLogger.mk againLog).bytes .debug μ = .ok log ∧
    (BufferLogger.mk (againLog ++ [.mapRemove [1#32] 5#32])).bytes .debug μ' = .ok log' ∧
    (BufferLogger.mk [.mapRemove [1#32] 5#32]).bytes .debug μ' = .ok new ∧
    againTyE.csReplay ρ againTyE.csNew log = .ok c1 ∧ againTyE.csReplay ρ c1 log' = .ok c2 ∧
    ∃ c2', againTyE.csReplay ρ c1 new = .ok c2' ∧ Alike againTyE c2 c2' := by
  have hf : ∀ e ∈ [Entry.mapRemove [1#32] 5#32], CsFits e := by unfold CsFits; decide +kernel
  have hf2 : ∀ e ∈ againLog ++ [Entry.mapRemove [1#32] 5#32], CsFits e := by unfold CsFits; decide +kernel
  have hlog := bytes_eq .debug μ ⟨againLog⟩ fun e he => fits_of (againLog_fits e he)
  have hlog' := bytes_eq .debug μ' ⟨againLog ++ [Entry.mapRemove [1#32] 5#32]⟩ fun e he => fits_of (hf2 e he)
  have hnew := bytes_eq .debug μ' ⟨[Entry.mapRemove [1#32] 5#32]⟩ fun e he => fits_of (hf e he)
  have h1 : againTyE.csReplay ρ againTyE.csNew (againLog.flatMap entryBytes) = .ok (9#8, [(5#32, .inl (6#8, ()))], ()) :=
    (csReplay_eq ρ againTyE _ _ againLog_fits).trans rfl
  have h2 : againTyE.csReplay ρ (9#8, [(5#32, .inl (6#8, ()))], ()) ((againLog ++ [Entry.mapRemove [1#32] 5#32]).flatMap entryBytes) =
      .ok (9#8, [], ()) := (csReplay_eq ρ againTyE _ _ hf2).trans rfl
  exact ⟨_, _, _, _, _, hlog, hlog', hnew, h1, h2, C79_client_overlap againTyE ρ .debug μ μ' againLog _ againLog_updates againLog_fits hf _ _ _
    hlog hlog' hnew _ _ _ h1 h2⟩

/-- Whatever way `againLog` is repeated, the client is left with what it says. -/
example (ρ : Bytes → Str) (μ : Nat → Mem) (es' : List Entry) (h : Repeats againLog es') : ∃ log' c', (BufferLogger.mk es').bytes .debug μ = .ok log' ∧
    againTyE.csReplay ρ againTyE.csNew log' = .ok c' ∧ Alike againTyE c' (9#8, [(5#32, .inl (6#8, ()))], ()) := by
  have hlog := bytes_eq .debug μ ⟨againLog⟩ fun e he => fits_of (againLog_fits e he)
  have hlog' := bytes_eq .debug μ ⟨es'⟩ fun e he => fits_of (againLog_fits e (repeats_mem h e he))
  have h1 : againTyE.csReplay ρ againTyE.csNew (againLog.flatMap entryBytes) = .ok (9#8, [(5#32, .inl (6#8, ()))], ()) :=
    (csReplay_eq ρ againTyE _ _ againLog_fits).trans rfl
  have h2 := C79_client_repeats againTyE ρ .debug μ μ againLog es' againLog_updates h againLog_fits _ _ hlog hlog' againTyE.csNew
  rw [show againTyE.csReplay ρ againTyE.csNew (List.flatMap entryBytes (BufferLogger.mk againLog).entries) = _ from h1] at h2
  cases h3 : againTyE.csReplay ρ againTyE.csNew (List.flatMap entryBytes (BufferLogger.mk es').entries) with
  | error x => rw [h3] at h2; exact h2.elim
  | ok c' => rw [h3] at h2; exact ⟨_, c', hlog', h3, h2⟩

/-- Two orders of a dictionary, both of which show the data of a map. -/
example : Shows (.map .u8 (.uint .w8)) ⟨⟨9, []⟩, [(1#32, 7#8), (2#32, 8#8)]⟩ [(2#32, 8#8), (1#32, 7#8)] := by
  refine C79_client_shows (.map .u8 (.uint .w8)) _ [(1#32, 7#8), (2#32, 8#8)] _ (fun k => ?_) (fun k => ?_)
  · show Option.Rel _ (List.lookup k _) (List.lookup k _)
    by_cases h1 : k = 1#32
    · subst h1; exact .some rfl
    · by_cases h2 : k = 2#32
      · subst h2; exact .some rfl
      · simp only [List.lookup, beq_false_of_ne h1, beq_false_of_ne h2]; exact .none
  · show Option.Rel _ (List.lookup k _) (List.lookup k _)
    by_cases h1 : k = 1#32
    · subst h1; exact .some rfl
    · by_cases h2 : k = 2#32
      · subst h2; exact .some rfl
      · simp only [List.lookup, beq_false_of_ne h1, beq_false_of_ne h2]; exact .none

end Steit
