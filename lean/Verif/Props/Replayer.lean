import Verif.Model.Replayer
import Verif.Props.ClassesShipped

/-!
# C69: a client of generated files and the class it ships for log entries

The theorems on replay in `Props/Classes.lean` have log entries read by the client model. Here they are read by the class in
`steit-csharp/src/State/LogEntry.cs`, from its text, so that the whole client is: generated files and the library.
-/

namespace Steit.Gen

open Steit.Gen.Spec Steit.Spec Steit.Conformance

theorem variantProp_at {P : Project} {variant prop : Text} {tag : U32} {i : Nat} (h : slotOf P variant prop tag = .ok i) {vs : List Val} {v : Val}
    (hv : vs[i]? = some v) : variantProp P variant prop tag (.inst vs) = .ok v := by
  simp only [variantProp, h, bind, Except.bind, hv, understood]

/-- A number of an entry. -/
def num (n : U32) : Val := .uint .w32 n

theorem numbersOf_cons (n : U32) (vs : List Val) : numbersOf (num n :: vs) = (numbersOf vs).bind fun ns => .ok (n :: ns) := rfl

theorem numbersOf_map (ns : List U32) : numbersOf (ns.map num) = .ok ns := by
  induction ns with
  | nil => rfl
  | cons n ns ih => rw [List.map_cons, numbersOf_cons, ih]; rfl

theorem slots : slotOf (projectOf [logEntryFile]) (lit! "Update") (lit! "FlattenPath") 0#32 = .ok 0 ∧
    slotOf (projectOf [logEntryFile]) (lit! "Update") (lit! "Value") 0#32 = .ok 1 ∧
    slotOf (projectOf [logEntryFile]) (lit! "ListPush") (lit! "FlattenPath") 8#32 = .ok 0 ∧
    slotOf (projectOf [logEntryFile]) (lit! "ListPush") (lit! "Item") 8#32 = .ok 1 ∧
    slotOf (projectOf [logEntryFile]) (lit! "ListPop") (lit! "FlattenPath") 9#32 = .ok 0 ∧
    slotOf (projectOf [logEntryFile]) (lit! "MapRemove") (lit! "FlattenPath") 12#32 = .ok 0 ∧
    slotOf (projectOf [logEntryFile]) (lit! "MapRemove") (lit! "Key") 12#32 = .ok 1 := by decide +kernel

theorem consts : constOf logEntryFile (lit! "UpdateTag") = some 0 ∧ constOf logEntryFile (lit! "ListPushTag") = some 8 ∧
    constOf logEntryFile (lit! "ListPopTag") = some 9 ∧ constOf logEntryFile (lit! "MapRemoveTag") = some 12 := by decide +kernel

theorem path_at {variant : Text} {tag : U32} (h : slotOf (projectOf [logEntryFile]) variant (lit! "FlattenPath") tag = .ok 0) (path : List U32)
    (vs : List Val) : entryPath (projectOf [logEntryFile]) variant tag (.inst (Val.items (path.map num) :: vs)) = .ok path := by
  unfold entryPath
  rw [variantProp_at h (vs := Val.items (path.map num) :: vs) (v := Val.items (path.map num)) rfl]
  exact numbersOf_map path

theorem payload_at {variant prop : Text} {tag : U32} (h : slotOf (projectOf [logEntryFile]) variant prop tag = .ok 1) (v : Val) (bs : Bytes)
    (vs : List Val) : payloadOf (projectOf [logEntryFile]) variant prop tag (.inst (v :: Val.bytes bs :: vs)) = .ok bs := by
  unfold payloadOf
  rw [variantProp_at h (vs := v :: Val.bytes bs :: vs) (v := Val.bytes bs) rfl]
  rfl

theorem entryOf_update (path : List U32) (value : Bytes) :
    entryOf logEntryFile (.enum 0#32 (.inst [.items (path.map num), .bytes value])) = .ok (.update path value) := by
  unfold entryOf
  dsimp only
  rw [if_pos (by rw [consts.1]; rfl), path_at slots.1, payload_at slots.2.1]
  rfl

theorem entryOf_listPush (path : List U32) (item : Bytes) :
    entryOf logEntryFile (.enum 8#32 (.inst [.items (path.map num), .bytes item])) = .ok (.listPush path item) := by
  obtain ⟨c1, c2, _⟩ := consts
  obtain ⟨_, _, s3, s4, _⟩ := slots
  unfold entryOf
  dsimp only
  rw [if_neg (by rw [c1]; decide), if_pos (by rw [c2]; rfl), path_at s3, payload_at s4]
  rfl

theorem entryOf_listPop (path : List U32) : entryOf logEntryFile (.enum 9#32 (.inst [.items (path.map num)])) = .ok (.listPop path) := by
  obtain ⟨c1, c2, c3, _⟩ := consts
  obtain ⟨_, _, _, _, s5, _⟩ := slots
  unfold entryOf
  dsimp only
  rw [if_neg (by rw [c1]; decide), if_neg (by rw [c2]; decide), if_pos (by rw [c3]; rfl), path_at s5]
  rfl

theorem entryOf_mapRemove (path : List U32) (key : U32) :
    entryOf logEntryFile (.enum 12#32 (.inst [.items (path.map num), num key])) = .ok (.mapRemove path key) := by
  obtain ⟨c1, c2, c3, c4⟩ := consts
  obtain ⟨_, _, _, _, _, s6, s7⟩ := slots
  unfold entryOf
  dsimp only
  rw [if_neg (by rw [c1]; decide), if_neg (by rw [c2]; decide), if_neg (by rw [c3]; decide), if_pos (by rw [c4]; rfl), path_at s6,
    variantProp_at s7 (vs := [.items (path.map num), num key]) (v := num key) rfl]
  rfl

/-- What `StateReplayer` gets out of an object of the class is the entry. -/
theorem entryOf_valOf (e : logEntryTy.Cs) : entryOf logEntryFile (valOf logEntryTy e) = .ok (.ofCs e) :=
  match e with
  | .inl (path, value, ()) => entryOf_update path value
  | .inr (.inl (path, item, ())) => entryOf_listPush path item
  | .inr (.inr (.inl (path, ()))) => entryOf_listPop path
  | .inr (.inr (.inr (.inl (path, key, ())))) => entryOf_mapRemove path key

theorem replayStepBy_eq (P : Project) (ρ : Bytes → Str) (n : Nat) (t : Rt) (o : Val) (bs : Bytes) :
    replayStepBy logEntryFile (depth logEntryTy) P ρ n t o bs = replayStepAt P ρ n t o bs := by
  have h1 := C69_log_entries_as_shipped ρ
  have h2 := entryOf_valOf
  unfold replayStepBy replayStepAt
  generalize logEntryFile = text at h1 h2 ⊢
  cases csGetNested bs with
  | error _ => rfl
  | ok p =>
    simp only [bind, Except.bind, h1]
    cases logEntryTy.csDeserialize ρ p.1 with
    | error _ => rfl
    | ok e => simp only [Except.map, h2]

theorem replayBy_eq (P : Project) (ρ : Bytes → Str) (n : Nat) (t : Rt) (o : Val) (bs : Bytes) :
    replayBy logEntryFile (depth logEntryTy) P ρ n t o bs = replay P ρ n t o bs := by
  have h : replayStepBy logEntryFile (depth logEntryTy) P ρ n t = replayStepAt P ρ n t :=
    funext fun o => funext fun bs => replayStepBy_eq P ρ n t o bs
  rw [replayBy, h]
  rfl

variable {D : Type} {cm : CaseMap} {setting : CSharpSetting} {S : Declarations D} {root : RTy (Inst D)} {texts : List Text}

/-- C69. Generated classes replay every log, good or bad, as the client model does, log entries read by the class in
`steit-csharp/src/State/LogEntry.cs` and taken apart by `StateReplayer`. -/
theorem C69_replays_as_shipped (hR : Ready cm setting S root texts) {a : RTy (Inst D)} (ha : Reach S.program.graph.links root a) {t : Ty} {k : Nat}
    (hm : Models S k a t) (hp : primitive t = false) (ρ : Bytes → Str) (v : t.Cs) (bs : Bytes) (hk : 2 * bs.length < k) {n : Nat}
    (hn : depth t ≤ n) :
    replayBy logEntryFile (depth logEntryTy) (projectOf texts) ρ n (rt S.name a) (valOf t v) bs = (t.csReplay ρ v bs).map (valOf t) := by
  rw [replayBy_eq, C69_replays hR ha hm hp ρ v bs hk hn]

/-- `C69_follows_rust_partial` with the class in `steit-csharp/src/State/LogEntry.cs`: a program made of the generated files and that class, which
gets the bytes of the source's state, then the log of what happens next, has in the end an object that shows the state of the source. (Missing, as
there: histories outside `CallsSync`, what C# cannot represent.) -/
theorem C69_follows_rust_as_shipped_partial (hR : Ready cm setting S root texts) {a : RTy (Inst D)} (ha : Reach S.program.graph.links root a)
    {t : Ty} {k : Nat} (hmod : Models S k a t) (hp : primitive t = false) (ht : t.WF) (hm : Mirrored t) (hroot : Rooted t) (ρ : Bytes → Str)
    (m : Mode) (μ : Prog.Mem) (μ' : Nat → Prog.Mem) (id : Nat) (ops : List t.Op) (v : t.El) (w : World) (hv : At t ⟨id, []⟩ v)
    (hc : Carried t v) (hlen : (encode t v).length < 2 ^ 31) (hw : w.loggers id = ⟨0, []⟩) (hops : CallsSync t m ops v w) {n : Nat}
    (hn : depth t ≤ n) :
    ∃ snapshot v' w', t.dict.toBytesFrom m μ v = .ok snapshot ∧ calls t m ops v w = (.ok v', w') ∧
      ((∀ e ∈ (w'.loggers id).entries, CsFits e) → ∃ bytes, (BufferLogger.mk (w'.loggers id).entries).bytes m μ' = .ok bytes ∧
        (snapshot.length < k → 2 * bytes.length < k → ∃ o c',
          deserialize (projectOf texts) ρ n (rt S.name a) snapshot = .ok (o, []) ∧
          replayBy logEntryFile (depth logEntryTy) (projectOf texts) ρ n (rt S.name a) o bytes = .ok (valOf t c') ∧ Shows t v' c')) := by
  simp only [replayBy_eq]
  exact C69_follows_rust_partial hR ha hmod hp ht hm hroot ρ m μ μ' id ops v w hv hc hlen hw hops hn

/-- Not vacuous: the generated files of `Hand` and `Mood` replay any log with this class. -/
example : ∃ texts : List Text, ∀ (ρ : Bytes → Str) (v : hTy.Cs) (bs : Bytes),
    replayBy logEntryFile (depth logEntryTy) (projectOf texts) ρ (depth hTy) (.message (lit! "Hand") []) (valOf hTy v) bs =
      (hTy.csReplay ρ v bs).map (valOf hTy) := by
  obtain ⟨texts, hR⟩ := handDecls_ready
  exact ⟨texts, fun ρ v bs => C69_replays_as_shipped hR .root (hTy_models (2 * bs.length + 1)) rfl ρ v bs (Nat.lt_succ_self _) (Nat.le_refl _)⟩

/-- Nor is the other: the history of C24's example. -/
example : ∃ texts : List Text, ∀ (ρ : Bytes → Str) (μ : Prog.Mem) (μ' : Nat → Prog.Mem), ∃ snapshot bytes v' w' o c',
    calls hTy .debug hOps (hVal [] [] (hA 0)) hWorld = (.ok v', w') ∧
    hTy.dict.toBytesFrom .debug μ (hVal [] [] (hA 0)) = .ok snapshot ∧
    (BufferLogger.mk (w'.loggers 4).entries).bytes .debug μ' = .ok bytes ∧
    deserialize (projectOf texts) ρ (depth hTy) (.message (lit! "Hand") []) snapshot = .ok (o, []) ∧
    replayBy logEntryFile (depth logEntryTy) (projectOf texts) ρ (depth hTy) (.message (lit! "Hand") []) o bytes = .ok (valOf hTy c') ∧
    Shows hTy v' c' := by
  obtain ⟨texts, hR⟩ := handDecls_ready
  refine ⟨texts, fun ρ μ μ' => ?_⟩
  have key := fun k => C69_follows_rust_as_shipped_partial hR .root (hTy_models k) rfl hTy_wf hTy_mirrored trivial ρ .debug μ μ' 4 hOps
    (hVal [] [] (hA 0)) hWorld (hVal_at 4) ((carried_init hTy).1 ⟨4, []⟩) (by decide +kernel) rfl (hOps_ok hWorld) (Nat.le_refl _)
  obtain ⟨snapshot, v', w', h1, h2, h3⟩ := key 0
  have hfit : ∀ e ∈ (w'.loggers 4).entries, CsFits e := by
    rw [show (w'.loggers 4).entries = ((calls hTy .debug hOps (hVal [] [] (hA 0)) hWorld).2.loggers 4).entries by rw [h2]]
    unfold CsFits
    decide +kernel
  obtain ⟨bytes, h4, _⟩ := h3 hfit
  obtain ⟨snapshot', v'', w'', h1', h2', h3'⟩ := key (snapshot.length + 2 * bytes.length + 1)
  cases h1.symm.trans h1'
  cases h2.symm.trans h2'
  obtain ⟨bytes', h4', h5⟩ := h3' hfit
  cases h4.symm.trans h4'
  obtain ⟨o, c', h6, h7, h8⟩ := h5 (by omega) (by omega)
  exact ⟨snapshot, bytes, v', w', o, c', h2, h1, h4, h6, h7, h8⟩

end Steit.Gen
