import Verif.Lemmas.GenFiles
import Verif.Props.Collect

/-!
# C66: generated files

`generate` writes the source of every message that is not skipped to a file of its own. On a working disk, that is what it does; which
files there are afterwards does not depend on the order in which the `HashMap` gives the messages. When it returns `Err`, or panics,
it has written the files of some messages and begun at most one more. But `Ok` does not mean that the files are complete: the
`BufWriter` is dropped without being flushed, and dropping ignores errors.
-/

namespace Steit.Gen

open Spec

variable {ω : Type} {D : Disk ω} {setting : GenSetting} {src : MessageMeta → Option Text}

/-! ## How `generate` ends -/

/-- C66. `Ok`: the names returned are those of the messages that are not skipped, each once and in the order of the map. There is a
file for each, with the beginning of its source; what may be missing at the end is less than fits a buffer (and where the standard
library passes long texts on as a whole, nothing is missing from a long text). All other files are as they were. -/
theorem C66_done_partial {es : List (String × MessageMeta)} (hn : (es.map (·.1)).Nodup) {names : List String} {s s' : Store ω}
    (h : generate D setting src es [] s = (.done names, s')) :
    names.Sublist (es.map (·.1)) ∧ names.Nodup ∧
    (∀ name, name ∈ names ↔ ∃ m, (name, m) ∈ es ∧ Wanted setting.skipBuiltins setting.skipNames name m) ∧
    (∀ name m, (name, m) ∈ es → Wanted setting.skipBuiltins setting.skipNames name m →
      ∃ text, src m = some text ∧ HoldsMost setting s'.files (pathOf name) text) ∧
    (∀ path, (∀ name ∈ names, path ≠ pathOf name) → s'.files path = s.files path) := by
  suffices key : ∀ (es : List (String × MessageMeta)) (hn : (es.map (·.1)).Nodup) (done names : List String) (s s' : Store ω),
      generate D setting src es done s = (.done names, s') → ∃ new, names = done ++ new ∧ new.Sublist (es.map (·.1)) ∧
      (∀ name, name ∈ new ↔ ∃ m, (name, m) ∈ es ∧ Wanted setting.skipBuiltins setting.skipNames name m) ∧
      (∀ name m, (name, m) ∈ es → Wanted setting.skipBuiltins setting.skipNames name m →
        ∃ text, src m = some text ∧ HoldsMost setting s'.files (pathOf name) text) by
    obtain ⟨new, rfl, h1, h2, h3⟩ := key es hn [] names s s' h
    refine ⟨h1, h1.nodup hn, h2, h3, fun path hp => generate_apart h fun name m hm hw => hp name ?_⟩
    exact (h2 name).2 ⟨m, hm, hw⟩
  clear hn h
  intro es
  induction es with
  | nil =>
    intro hn done names s s' h
    cases h
    exact ⟨[], by simp, by simp, by simp, by simp⟩
  | cons e es ih =>
    obtain ⟨name, m⟩ := e
    intro hn done names s s' h
    have hn' : (es.map (·.1)).Nodup := (List.nodup_cons.1 hn).2
    by_cases hw : Wanted setting.skipBuiltins setting.skipNames name m
    · rcases generate_step (D := D) (src := src) hw es done s with ⟨he, _⟩ | ⟨text, s1, _, he, _, _⟩ |
        ⟨text, s1, kept, lost, hm, he, hu, hf, hl, hwh, _⟩
      · rw [he] at h; cases h
      · rw [he] at h; cases h
      · rw [he] at h
        obtain ⟨new, rfl, h1, h2, h3⟩ := ih hn' _ _ _ _ h
        refine ⟨name :: new, by simp, h1.cons_cons _, fun n => ?_, fun n m' hmem hw' => ?_⟩
        · constructor
          · intro hmem
            rcases List.mem_cons.1 hmem with rfl | hmem
            · exact ⟨m, .head _, hw⟩
            · obtain ⟨m', h4, h5⟩ := (h2 n).1 hmem
              exact ⟨m', .tail _ h4, h5⟩
          · rintro ⟨m', h4, h5⟩
            rcases List.mem_cons.1 h4 with h4 | h4
            · cases h4; exact .head _
            · exact .tail _ ((h2 n).2 ⟨m', h4, h5⟩)
        · rcases List.mem_cons.1 hmem with h4 | h4
          · cases h4
            refine ⟨text, hm, kept, lost, hu, ?_, hl, hwh⟩
            rw [generate_apart h fun n' m' hm' _ => apart_of_nodup hn (n', m') hm', hf, set_same]
          · exact h3 n m' h4 hw'
    · rw [generate_skip hw] at h
      obtain ⟨new, rfl, h1, h2, h3⟩ := ih hn' _ _ _ _ h
      refine ⟨new, rfl, h1.cons _, fun n => ?_, fun n m' hmem hw' => ?_⟩
      · rw [h2]
        constructor
        · rintro ⟨m', h4, h5⟩; exact ⟨m', .tail _ h4, h5⟩
        · rintro ⟨m', h4, h5⟩
          rcases List.mem_cons.1 h4 with h4 | h4
          · cases h4; exact absurd h5 hw
          · exact ⟨m', h4, h5⟩
      · rcases List.mem_cons.1 hmem with h4 | h4
        · cases h4; exact absurd hw' hw
        · exact h3 n m' h4 hw'

/-- C66. `Err` or a panic: the messages before some message that is not skipped have their files, as after `Ok`; the file of that
message is as it was or holds the beginning of its source (after a panic, which comes from generating that source, it is as it was);
all other files are as they were. -/
theorem C66_stopped {es : List (String × MessageMeta)} (hn : (es.map (·.1)).Nodup) {s s' : Store ω} {r : GenEnd}
    (h : generate D setting src es [] s = (r, s')) (hr : ∀ names, r ≠ .done names) :
    ∃ before name m after, es = before ++ (name, m) :: after ∧ Wanted setting.skipBuiltins setting.skipNames name m ∧
    (∀ n m', (n, m') ∈ before → Wanted setting.skipBuiltins setting.skipNames n m' →
      ∃ text, src m' = some text ∧ HoldsMost setting s'.files (pathOf n) text) ∧
    (∀ path, path ≠ pathOf name →
      (∀ n m', (n, m') ∈ before → Wanted setting.skipBuiltins setting.skipNames n m' → path ≠ pathOf n) →
      s'.files path = s.files path) ∧
    (r = .panicked → src m = none ∧ s'.files (pathOf name) = s.files (pathOf name)) ∧
    (r = .failed → ∃ text, src m = some text ∧
      (s'.files (pathOf name) = s.files (pathOf name) ∨ HoldsSome s'.files (pathOf name) text)) := by
  suffices key : ∀ (es : List (String × MessageMeta)) (hn : (es.map (·.1)).Nodup) (done : List String) (s s' : Store ω),
      generate D setting src es done s = (r, s') →
      ∃ before name m after, es = before ++ (name, m) :: after ∧ Wanted setting.skipBuiltins setting.skipNames name m ∧
      (∀ n m', (n, m') ∈ before → Wanted setting.skipBuiltins setting.skipNames n m' →
        ∃ text, src m' = some text ∧ HoldsMost setting s'.files (pathOf n) text) ∧
      (∀ path, path ≠ pathOf name →
        (∀ n m', (n, m') ∈ before → Wanted setting.skipBuiltins setting.skipNames n m' → path ≠ pathOf n) →
        s'.files path = s.files path) ∧
      (r = .panicked → src m = none ∧ s'.files (pathOf name) = s.files (pathOf name)) ∧
      (r = .failed → ∃ text, src m = some text ∧
        (s'.files (pathOf name) = s.files (pathOf name) ∨ HoldsSome s'.files (pathOf name) text)) from key es hn [] s s' h
  clear hn h
  intro es
  induction es with
  | nil =>
    intro hn done s s' h
    cases h
    exact absurd rfl (hr done)
  | cons e es ih =>
    obtain ⟨name, m⟩ := e
    intro hn done s s' h
    have hn' : (es.map (·.1)).Nodup := (List.nodup_cons.1 hn).2
    by_cases hw : Wanted setting.skipBuiltins setting.skipNames name m
    · rcases generate_step (D := D) (src := src) hw es done s with ⟨he, hm⟩ | ⟨text, s1, hm, he, _, hf⟩ |
        ⟨text, s1, kept, lost, hm, he, hu, hf, hl, hwh, _⟩
      · rw [he] at h; cases h
        exact ⟨[], name, m, es, rfl, hw, by simp, fun _ _ _ => rfl, fun _ => ⟨hm, rfl⟩, by rintro ⟨⟩⟩
      · rw [he] at h; cases h
        refine ⟨[], name, m, es, rfl, hw, by simp, fun path hp _ => ?_, (by rintro ⟨⟩), fun _ => ⟨text, hm, ?_⟩⟩
        · rcases hf with hf | ⟨kept, lost, _, hf⟩
          · rw [hf]
          · rw [hf, set_other _ _ hp]
        · rcases hf with hf | ⟨kept, lost, hu, hf⟩
          · exact .inl (by rw [hf])
          · exact .inr ⟨kept, lost, hu, by rw [hf, set_same]⟩
      · rw [he] at h
        obtain ⟨before, name', m', after, rfl, hw', h1, h2, h3, h4⟩ := ih hn' _ _ _ h
        have hne : pathOf name ≠ pathOf name' := apart_of_nodup hn (name', m') (by simp)
        have hother : s1.files (pathOf name') = s.files (pathOf name') := by rw [hf, set_other _ _ (Ne.symm hne)]
        refine ⟨(name, m) :: before, name', m', after, rfl, hw', fun n m2 hmem hw2 => ?_, fun path hp hb => ?_, fun hr => ?_, fun hr => ?_⟩
        · rcases List.mem_cons.1 hmem with hmem | hmem
          · cases hmem
            refine ⟨text, hm, kept, lost, hu, ?_, hl, hwh⟩
            rw [h2 _ hne fun n2 m2 hm2 _ => apart_of_nodup hn (n2, m2) (by simp [hm2]), hf, set_same]
          · exact h1 n m2 hmem hw2
        · rw [h2 path hp fun n m2 hm2 => hb n m2 (.tail _ hm2), hf, set_other _ _ (hb name m (.head _) hw)]
        · exact ⟨(h3 hr).1, by rw [(h3 hr).2, hother]⟩
        · obtain ⟨t, ht, h5⟩ := h4 hr
          exact ⟨t, ht, by rw [← hother]; exact h5⟩
    · rw [generate_skip hw] at h
      obtain ⟨before, name', m', after, rfl, hw', h1, h2, h3, h4⟩ := ih hn' _ _ _ h
      refine ⟨(name, m) :: before, name', m', after, rfl, hw', fun n m2 hmem hw2 => ?_, fun path hp hb => ?_, h3, h4⟩
      · rcases List.mem_cons.1 hmem with hmem | hmem
        · cases hmem; exact absurd hw2 hw
        · exact h1 n m2 hmem hw2
      · exact h2 path hp fun n m2 hm2 => hb n m2 (.tail _ hm2)

/-! ## On a working disk -/

/-- C66. On a working disk, and where every source can be generated, `generate` returns `Ok`, every message that is not skipped has its
whole source in its file, and all other files are as they were. -/
theorem C66_working_disk (hD : Working D) {es : List (String × MessageMeta)} (hn : (es.map (·.1)).Nodup)
    (hs : ∀ name m, (name, m) ∈ es → Wanted setting.skipBuiltins setting.skipNames name m → src m ≠ none) (s : Store ω) :
    ∃ names s', generate D setting src es [] s = (.done names, s') ∧
    (∀ name m, (name, m) ∈ es → Wanted setting.skipBuiltins setting.skipNames name m →
      ∃ text, src m = some text ∧ s'.files (pathOf name) = some (utf8 text)) ∧
    (∀ path, (∀ name ∈ names, path ≠ pathOf name) → s'.files path = s.files path) := by
  suffices key : ∀ (es : List (String × MessageMeta)) (hn : (es.map (·.1)).Nodup)
      (hs : ∀ name m, (name, m) ∈ es → Wanted setting.skipBuiltins setting.skipNames name m → src m ≠ none) (done : List String)
      (s : Store ω), ∃ names s', generate D setting src es done s = (.done names, s') ∧
      (∀ name m, (name, m) ∈ es → Wanted setting.skipBuiltins setting.skipNames name m →
        ∃ text, src m = some text ∧ s'.files (pathOf name) = some (utf8 text)) by
    obtain ⟨names, s', h1, h2⟩ := key es hn hs [] s
    exact ⟨names, s', h1, h2, (C66_done_partial hn h1).2.2.2.2⟩
  clear hn hs s
  intro es
  induction es with
  | nil => intro _ _ done s; exact ⟨done, s, rfl, by simp⟩
  | cons e es ih =>
    obtain ⟨name, m⟩ := e
    intro hn hs done s
    have hn' : (es.map (·.1)).Nodup := (List.nodup_cons.1 hn).2
    have hs' : ∀ name m, (name, m) ∈ es → Wanted setting.skipBuiltins setting.skipNames name m → src m ≠ none :=
      fun n m h => hs n m (.tail _ h)
    by_cases hw : Wanted setting.skipBuiltins setting.skipNames name m
    · rcases generate_step (D := D) (src := src) hw es done s with ⟨he, hm⟩ | ⟨text, s1, hm, he, hnw, hf⟩ |
        ⟨text, s1, kept, lost, hm, he, hu, hf, _, _, hl⟩
      · exact absurd hm (hs name m (.head _) hw)
      · exact absurd hD hnw
      · obtain ⟨names, s', h1, h2⟩ := ih hn' hs' (done ++ [name]) s1
        refine ⟨names, s', by rw [he, h1], fun n m' hmem hw' => ?_⟩
        rcases List.mem_cons.1 hmem with hmem | hmem
        · cases hmem
          refine ⟨text, hm, ?_⟩
          rw [generate_apart h1 fun n' m' hm' _ => apart_of_nodup hn (n', m') hm', hf, set_same, hu, hl hD, List.append_nil]
        · exact h2 n m' hmem hw'
    · obtain ⟨names, s', h1, h2⟩ := ih hn' hs' done s
      refine ⟨names, s', by rw [generate_skip hw, h1], fun n m' hmem hw' => ?_⟩
      rcases List.mem_cons.1 hmem with hmem | hmem
      · cases hmem; exact absurd hw' hw
      · exact h2 n m' hmem hw'

/-- C66. The files do not depend on the order in which the `HashMap` gives the messages, nor on the version of the standard library,
nor (those of the messages) on what was there before: two runs on working disks, possibly different ones, agree on every message's
file, and on all files if they agreed on all other files before. -/
theorem C66_order_does_not_matter {ω' : Type} {D' : Disk ω'} (hD : Working D) (hD' : Working D') {setting' : GenSetting}
    (hb : setting'.skipBuiltins = setting.skipBuiltins) (hk : ∀ n, n ∈ setting'.skipNames ↔ n ∈ setting.skipNames)
    {es es' : List (String × MessageMeta)} (hp : es.Perm es') (hn : (es.map (·.1)).Nodup)
    (hs : ∀ name m, (name, m) ∈ es → Wanted setting.skipBuiltins setting.skipNames name m → src m ≠ none)
    {s : Store ω} {t : Store ω'} (hst : ∀ path, (∀ name m, (name, m) ∈ es →
      Wanted setting.skipBuiltins setting.skipNames name m → path ≠ pathOf name) → s.files path = t.files path) :
    ∃ names names' s' t', generate D setting src es [] s = (.done names, s') ∧
      generate D' setting' src es' [] t = (.done names', t') ∧ names.Perm names' ∧ s'.files = t'.files := by
  have hW : ∀ n m, Wanted setting'.skipBuiltins setting'.skipNames n m ↔ Wanted setting.skipBuiltins setting.skipNames n m := by
    intro n m
    unfold Wanted
    rw [hb, hk]
  have hn' : (es'.map (·.1)).Nodup := (hp.map _).nodup_iff.1 hn
  have hs' : ∀ name m, (name, m) ∈ es' → Wanted setting'.skipBuiltins setting'.skipNames name m → src m ≠ none :=
    fun n m h w => hs n m (hp.mem_iff.2 h) ((hW n m).1 w)
  obtain ⟨names, s', h1, h2, h3⟩ := C66_working_disk hD hn hs s
  obtain ⟨names', t', g1, g2, g3⟩ := C66_working_disk hD' hn' hs' t
  obtain ⟨_, hnd, hmem, _, _⟩ := C66_done_partial hn h1
  obtain ⟨_, hnd', hmem', _, _⟩ := C66_done_partial hn' g1
  have hsame : ∀ n, n ∈ names ↔ n ∈ names' := by
    intro n
    rw [hmem, hmem']
    exact exists_congr fun m => and_congr hp.mem_iff (hW n m).symm
  refine ⟨names, names', s', t', h1, g1, (List.perm_ext_iff_of_nodup hnd hnd').2 hsame, ?_⟩
  funext path
  by_cases hpath : ∃ name ∈ names, path = pathOf name
  · obtain ⟨name, hname, rfl⟩ := hpath
    obtain ⟨m, hm, hw⟩ := (hmem name).1 hname
    obtain ⟨text, ht, hf⟩ := h2 name m hm hw
    obtain ⟨text', ht', hf'⟩ := g2 name m (hp.mem_iff.1 hm) ((hW name m).2 hw)
    rw [hf, hf']
    rw [ht] at ht'
    cases ht'
    rfl
  · have hno : ∀ name ∈ names, path ≠ pathOf name := fun name hn' he => hpath ⟨name, hn', he⟩
    rw [h3 path hno, g3 path fun name hn' => hno name ((hsame name).2 hn'),
      hst path fun name m hm hw => hno name ((hmem name).2 ⟨m, hm, hw⟩)]

/-- C66. Generating again changes nothing. -/
theorem C66_again (hD : Working D) {es : List (String × MessageMeta)} (hn : (es.map (·.1)).Nodup)
    (hs : ∀ name m, (name, m) ∈ es → Wanted setting.skipBuiltins setting.skipNames name m → src m ≠ none) (s : Store ω) :
    ∃ names s' s'', generate D setting src es [] s = (.done names, s') ∧ generate D setting src es [] s' = (.done names, s'') ∧
      s''.files = s'.files := by
  obtain ⟨names, s', h1, h2, h3⟩ := C66_working_disk hD hn hs s
  obtain ⟨names', s'', g1, g2, g3⟩ := C66_working_disk hD hn hs s'
  obtain ⟨names1, names2, a, b, e1, e2, _, e3⟩ := C66_order_does_not_matter (setting' := setting) hD hD rfl (fun _ => Iff.rfl)
    (.refl es) hn hs (s := s) (t := s') (fun path hp => (h3 path fun name hname => by
      obtain ⟨m, hm, hw⟩ := ((C66_done_partial hn h1).2.2.1 name).1 hname
      exact hp name m hm hw).symm)
  rw [h1] at e1
  rw [g1] at e2
  cases e1
  cases e2
  obtain ⟨_, hnd, hmem, _, _⟩ := C66_done_partial hn h1
  obtain ⟨hsub, hnd', hmem', _, _⟩ := C66_done_partial hn g1
  have : names = names' := by
    have hsub0 := (C66_done_partial hn h1).1
    exact sublist_ext hn hsub0 hsub fun n => by rw [hmem, hmem']
  subst this
  exact ⟨names, s', s'', h1, g1, e3.symm⟩

/-! ## From a type to its files -/

variable {ν : Type} {G : Graph ν} {core : ν → ν} {getName : MessageMeta → String} {root : ν}

/-- C66 and C48 together: where types tell what is behind them and messages have distinct names, and on a working disk, after
generating from `root` (in whatever order) the file of every message `root` refers to, if not skipped, holds its source, and no other
file has changed. -/
theorem C66_from_root_partial (ht : TypesTell G core root)
    (hd : ∀ m m', Refers G root m → Refers G root m' → getName m = getName m' → m = m') {fuel : Nat}
    {col es : List (String × MessageMeta)} (hcol : collectMeta G getName fuel root = some col) (hp : es.Perm col) (hD : Working D)
    (hs : ∀ m, Refers G root m → Wanted setting.skipBuiltins setting.skipNames (getName m) m → src m ≠ none) (s : Store ω) :
    ∃ names s', generate D setting src es [] s = (.done names, s') ∧ names.Nodup ∧
    (∀ name, name ∈ names ↔ ∃ m, Refers G root m ∧ name = getName m ∧ Wanted setting.skipBuiltins setting.skipNames name m) ∧
    (∀ m, Refers G root m → Wanted setting.skipBuiltins setting.skipNames (getName m) m →
      ∃ text, src m = some text ∧ s'.files (pathOf (getName m)) = some (utf8 text)) ∧
    (∀ path, (∀ name ∈ names, path ≠ pathOf name) → s'.files path = s.files path) := by
  obtain ⟨hn, hk⟩ := C48_only_reachable hcol
  have hn' : (es.map (·.1)).Nodup := (hp.map _).nodup_iff.2 hn
  have hmem : ∀ m, Refers G root m → (getName m, m) ∈ es := by
    intro m hm
    obtain ⟨⟨k, m'⟩, he, rfl⟩ := List.mem_map.1 (((C48_exactly_once_partial ht hd hcol).1 m).2 hm)
    have := (hk k m' he).1
    subst this
    exact hp.mem_iff.2 he
  have hk' : ∀ k m, (k, m) ∈ es → k = getName m ∧ Refers G root m := fun k m h => hk k m (hp.mem_iff.1 h)
  obtain ⟨names, s', h1, h2, h3⟩ := C66_working_disk (setting := setting) (src := src) hD hn' (fun n m hm hw => by
    obtain ⟨rfl, hr⟩ := hk' n m hm
    exact hs m hr hw) s
  obtain ⟨_, hnd, hnm, _, _⟩ := C66_done_partial hn' h1
  refine ⟨names, s', h1, hnd, fun name => ?_, fun m hm hw => h2 _ m (hmem m hm) hw, h3⟩
  rw [hnm]
  constructor
  · rintro ⟨m, hm, hw⟩
    obtain ⟨rfl, hr⟩ := hk' name m hm
    exact ⟨m, hr, rfl, hw⟩
  · rintro ⟨m, hr, rfl, hw⟩
    exact ⟨m, hmem m hr, hw⟩

/-! ## Examples and counterexamples -/

/-- A disk that takes three bytes at a time. -/
def slowDisk : Disk Unit := ⟨fun _ _ _ => (true, ()), fun _ _ _ _ => (some 3, ())⟩

theorem slowDisk_working : Working slowDisk := ⟨fun _ _ _ => rfl, fun _ _ _ _ _ => ⟨3, by decide, rfl⟩⟩

/-- A full disk: files can be created, nothing can be written. -/
def fullDisk : Disk Unit := ⟨fun _ _ _ => (true, ()), fun _ _ _ _ => (none, ())⟩

/-- A disk with room for a number of bytes. -/
def smallDisk : Disk Nat := ⟨fun _ _ w => (true, w), fun _ bs _ w => if w = 0 then (none, 0) else (some w, w - bs.length)⟩

/-- The metadata of a struct without fields. -/
def emptyStruct (name : String) (builtin : Bool) : MessageMeta := .struct ⟨⟨name, none⟩, [], [], builtin⟩

/-- Three messages, one of them built in, one to be skipped. -/
def exMessages : List (String × MessageMeta) :=
  [("A", emptyStruct "A" false), ("B", emptyStruct "B" true), ("C", emptyStruct "C" false), ("D", emptyStruct "D" false)]

/-- A small source, instead of C#. -/
def exSource (m : MessageMeta) : Option Text := some (fmt (fmt! "class {} {{ }}" m.csharpName.toList))

def exSetting (whole : Bool) (capacity : Nat) : GenSetting := ⟨true, ["C"], whole, capacity⟩

/-- Files that were there before. -/
def exFiles : Files := fun p => if p = "A.cs" then some (utf8 (lit! "an older and longer version")) else if p = "X.cs" then some [] else none

/-- What there is afterwards. -/
def seen {ω : Type} (r : GenEnd × Store ω) : GenEnd × List (Option Bytes) :=
  (r.1, ["A.cs", "B.cs", "C.cs", "D.cs", "X.cs"].map r.2.files)

example : (exMessages.map (·.1)).Nodup ∧ Working slowDisk ∧
    seen (generate slowDisk (exSetting true 8192) exSource exMessages [] ⟨exFiles, ()⟩) =
      (.done ["A", "D"], [some (utf8 (lit! "class A { }")), none, none, some (utf8 (lit! "class D { }")), some []]) :=
  ⟨by decide, slowDisk_working, by decide +kernel⟩

/-- Both versions of the standard library, with a small buffer, and room for 16 bytes. -/
example :
    seen (generate smallDisk (exSetting true 4) exSource exMessages [] ⟨exFiles, 16⟩) =
      (.failed, [some (utf8 (lit! "class A { }")), none, none, some (utf8 (lit! "class")), some []]) ∧
    seen (generate smallDisk (exSetting true 12) exSource exMessages [] ⟨exFiles, 16⟩) =
      (.done ["A", "D"], [some (utf8 (lit! "class A { }")), none, none, some (utf8 (lit! "class")), some []]) ∧
    seen (generate smallDisk (exSetting false 8) exSource exMessages [] ⟨exFiles, 16⟩) =
      (.done ["A", "D"], [some (utf8 (lit! "class A { }")), none, none, some (utf8 (lit! "class")), some []]) :=
  ⟨by decide +kernel, by decide +kernel, by decide +kernel⟩

/-- C66, defect: `Ok` does not mean that the files are complete, however small the sources and whatever the standard library. On a full
disk `generate` returns `Ok`, having emptied a file that was there before. -/
theorem C66_ok_means_complete_false (whole : Bool) : ∃ (D : Disk Unit) (es : List (String × MessageMeta)) (s s' : Store Unit)
    (name : String) (m : MessageMeta) (text : Text) (old : Bytes),
    (es.map (·.1)).Nodup ∧ (name, m) ∈ es ∧ exSource m = some text ∧ text ≠ [] ∧ s.files (pathOf name) = some old ∧ old ≠ [] ∧
    generate D (exSetting whole 8192) exSource es [] s = (.done [name], s') ∧ s'.files (pathOf name) = some [] := by
  refine ⟨fullDisk, [("A", emptyStruct "A" false)], ⟨exFiles, ()⟩,
    (generate fullDisk (exSetting whole 8192) exSource [("A", emptyStruct "A" false)] [] ⟨exFiles, ()⟩).2, "A", emptyStruct "A" false,
    _, _, by decide, .head _, rfl, by decide +kernel, rfl, by decide +kernel, Prod.ext ?_ rfl, ?_⟩
  · cases whole <;> decide +kernel
  · cases whole <;> decide +kernel

/-- C66. Messages that are gone keep their files: nothing is ever removed. -/
theorem C66_nothing_is_removed {es : List (String × MessageMeta)} {names : List String} {s s' : Store ω} {r : GenEnd}
    (h : generate D setting src es names s = (r, s')) {path : String} (hp : s.files path ≠ none) : s'.files path ≠ none := by
  induction es generalizing names s with
  | nil => cases h; exact hp
  | cons e es ih =>
    obtain ⟨name, m⟩ := e
    have hset : ∀ {fs : Files} {bs : Bytes}, fs = s.files.set (pathOf name) bs → fs path ≠ none := by
      rintro fs bs rfl
      unfold Files.set
      split
      · simp
      · exact hp
    by_cases hw : Wanted setting.skipBuiltins setting.skipNames name m
    · rcases generate_step (D := D) (src := src) hw es names s with ⟨he, _⟩ | ⟨text, s1, _, he, _, hf⟩ |
        ⟨text, s1, kept, lost, _, he, _, hf, _⟩
      · rw [he] at h; cases h; exact hp
      · rw [he] at h; cases h
        rcases hf with hf | ⟨kept, lost, _, hf⟩
        · rw [hf]; exact hp
        · exact hset hf
      · rw [he] at h
        exact ih h (hset hf)
    · rw [generate_skip hw] at h
      exact ih h hp

/-- From a root: `struct A { xs: List<A>, b: B }` of C48, with the C# sources. -/
example : ∃ names s', generate slowDisk ⟨true, ["B"], true, 8192⟩ (source ascii ⟨lit! "N", []⟩)
      [("C", cyclic.message 2), ("A", cyclic.message 0), ("B", cyclic.message 1)] [] ⟨exFiles, ()⟩ = (.done names, s') ∧
    names = ["C", "A"] ∧ s'.files "X.cs" = some [] ∧ s'.files "B.cs" = none ∧
    s'.files "A.cs" = (source ascii ⟨lit! "N", []⟩ (cyclic.message 0)).map utf8 := by
  have hn : ([("C", cyclic.message 2), ("A", cyclic.message 0), ("B", cyclic.message 1)].map (·.1)).Nodup := by decide +kernel
  obtain ⟨names, s', h1, h2, h3⟩ := C66_working_disk (setting := ⟨true, ["B"], true, 8192⟩) (src := source ascii ⟨lit! "N", []⟩)
    slowDisk_working hn (fun name m hm _ => by
      simp only [List.mem_cons, List.not_mem_nil, or_false, Prod.mk.injEq] at hm
      rcases hm with ⟨_, rfl⟩ | ⟨_, rfl⟩ | ⟨_, rfl⟩ <;> decide +kernel) ⟨exFiles, ()⟩
  obtain ⟨hsub, hnd, hnm, _, _⟩ := C66_done_partial hn h1
  have hnames : names = ["C", "A"] := by
    refine sublist_ext hn hsub (by decide +kernel) fun n => ?_
    rw [hnm]
    simp only [List.mem_cons, List.not_mem_nil, or_false, Prod.mk.injEq]
    constructor
    · rintro ⟨m, h | h | h, hw⟩
      · exact .inl h.1
      · exact .inr h.1
      · exact absurd (by rw [h.1]; exact .head _) hw.1
    · rintro (rfl | rfl)
      · exact ⟨_, .inl ⟨rfl, rfl⟩, by decide +kernel, fun _ => rfl⟩
      · exact ⟨_, .inr (.inl ⟨rfl, rfl⟩), by decide +kernel, fun _ => rfl⟩
  subst hnames
  refine ⟨_, s', h1, rfl, ?_, ?_, ?_⟩
  · rw [h3 _ (by decide +kernel)]; rfl
  · rw [h3 _ (by decide +kernel)]; rfl
  · obtain ⟨text, ht, hf⟩ := h2 "A" (cyclic.message 0) (.tail _ (.head _)) ⟨by decide +kernel, fun _ => rfl⟩
    rw [ht]
    exact hf

end Steit.Gen
