import Verif.Lemmas.Classes
import Verif.Props.FieldMeta
import Verif.Props.Members

/-!
# Reading the types in generated classes
-/

namespace Steit.Gen

open Steit.Gen.Spec Steit.Spec

variable {D : Type}

/-! ## What a C# type is at run time -/

mutual
/-- The type at run time, given what type parameters stand for. -/
def rtOf (name : D → NameMeta) (σ : String → Rt) : CsType D → Rt
  | .mk (.param p) _ => σ p
  | .mk (.system n) _ => .system n.toList
  | .mk (.library n) args => .library n.toList (rtsOf name σ args)
  | .mk (.message d) args => .message (name d).csharpName.toList (rtsOf name σ args)

/-- See `rtOf`. -/
def rtsOf (name : D → NameMeta) (σ : String → Rt) : CsTypes D → List Rt
  | .nil => []
  | .cons t ts => rtOf name σ t :: rtsOf name σ ts
end

theorem rtsOf_length (name : D → NameMeta) (σ : String → Rt) : ∀ ts : CsTypes D, (rtsOf name σ ts).length = ts.length
  | .nil => by simp [rtsOf, CsTypes.length]
  | .cons _ ts => by simp [rtsOf, CsTypes.length, rtsOf_length name σ ts]

mutual
theorem rtOf_mirror (name : D → NameMeta) (ρ : String → RTy (Inst D)) : ∀ w : Written D,
    rtOf name (fun p => rt name (ρ p)) (mirror w) = rt name (w.resolve ρ)
  | .param p => by simp [mirror, rtOf, Written.resolve]
  | .prim _ _ _ => by simp [mirror, rtOf, Written.resolve, rt]
  | .bytes => by simp [mirror, rtOf, Written.resolve, rt, rtsOf]
  | .paren t => by simp only [mirror, Written.resolve]; exact rtOf_mirror name ρ t
  | .array _ t => by simp [mirror, rtOf, Written.resolve, rt, rtsOf, rtOf_mirror name ρ t]
  | .vec t => by simp [mirror, rtOf, Written.resolve, rt, rtsOf, rtOf_mirror name ρ t]
  | .option t => by simp [mirror, rtOf, Written.resolve, rt, rtsOf, rtOf_mirror name ρ t]
  | .box t => by simp only [mirror, Written.resolve, rt]; exact rtOf_mirror name ρ t
  | .list t => by simp [mirror, rtOf, Written.resolve, rt, rtsOf, rtOf_mirror name ρ t]
  | .map _ _ _ t => by simp [mirror, rtOf, Written.resolve, rt, rtsOf, rtOf_mirror name ρ t]
  | .msg d args => by simp [mirror, rtOf, Written.resolve, rt, rtMessage, rtsOf_mirrors name ρ args]
  | .alias t => by simp only [mirror, Written.resolve]; exact rtOf_mirror name ρ t

theorem rtsOf_mirrors (name : D → NameMeta) (ρ : String → RTy (Inst D)) : ∀ ws : WrittenArgs D,
    rtsOf name (fun p => rt name (ρ p)) (mirrors ws) = rts name (ws.resolve ρ)
  | .nil => by simp [mirrors, rtsOf, WrittenArgs.resolve, rts]
  | .cons t ts => by simp [mirrors, rtsOf, WrittenArgs.resolve, rts, rtOf_mirror name ρ t, rtsOf_mirrors name ρ ts]
end

theorem rts_length (name : D → NameMeta) : ∀ ts : List (RTy (Inst D)), (rts name ts).length = ts.length
  | [] => by simp [rts]
  | _ :: ts => by simp [rts, rts_length name ts]

/-! ## Reading -/

mutual
/-- Every name in a type is read as such, and looked up to what is meant. -/
def Evals (lk : Text → List Rt → Option Rt) (name : D → NameMeta) (σ : String → Rt) : CsType D → Prop
  | .mk what args => (∀ c ∈ what.text name, isTypePunct c = false) ∧
      lk (what.text name) (rtsOf name σ args) = some (rtOf name σ (.mk what args)) ∧ EvalsAll lk name σ args

/-- See `Evals`. -/
def EvalsAll (lk : Text → List Rt → Option Rt) (name : D → NameMeta) (σ : String → Rt) : CsTypes D → Prop
  | .nil => True
  | .cons t ts => Evals lk name σ t ∧ EvalsAll lk name σ ts
end

/-- The text ends, or a type argument does. -/
def Ends (rest : Text) : Prop := ∀ c r, rest = c :: r → c = '>' ∨ c = ','

theorem name_taken {x : Text} (hx : ∀ c ∈ x, isTypePunct c = false) {rest : Text} (hr : ∀ c r, rest = c :: r → isTypePunct c = true) :
    (x ++ rest).takeWhile (fun c => !isTypePunct c) = x ∧ (x ++ rest).dropWhile (fun c => !isTypePunct c) = rest := by
  induction x with
  | nil =>
    cases rest with
    | nil => exact ⟨rfl, rfl⟩
    | cons c r => simp [List.takeWhile, List.dropWhile, hr c r rfl]
  | cons c x ih =>
    have h := hx c (.head _)
    obtain ⟨h1, h2⟩ := ih fun c hc => hx c (.tail _ hc)
    simp [List.takeWhile, List.dropWhile, h, h1, h2]

variable {lk : Text → List Rt → Option Rt} {name : D → NameMeta} {σ : String → Rt}

mutual
theorem readTypeAt_show : ∀ (t : CsType D), Evals lk name σ t → ∀ n, 2 * (t.show name).length + 1 ≤ n → ∀ rest, Ends rest →
    readTypeAt lk n (t.show name ++ rest) = some (rtOf name σ t, rest)
  | .mk what .nil, h, n, hn, rest, hr => by
    obtain ⟨n, rfl⟩ : ∃ m, n = m + 1 := ⟨n - 1, by omega⟩
    simp only [Evals, rtsOf] at h
    obtain ⟨h1, h2⟩ := name_taken h.1 (rest := rest) fun c r e => by
      rcases hr c r e with rfl | rfl <;> rfl
    simp only [CsType.show, readTypeAt, h1, h2]
    split
    · rename_i r
      rcases hr _ _ rfl with h | h <;> cases h
    · simp [h.2.1]
  | .mk what (.cons t ts), h, n, hn, rest, hr => by
    obtain ⟨n, rfl⟩ : ∃ m, n = m + 1 := ⟨n - 1, by omega⟩
    simp only [Evals] at h
    obtain ⟨h1, h2⟩ := name_taken h.1 (rest := '<' :: (t.show name ++ ts.showRest name ++ '>' :: rest)) fun c r e => by
      cases e; rfl
    simp only [CsType.show, List.length_append, List.length_cons, List.length_nil] at hn
    have := readArgsAt_show (.cons t ts) h.2.2 n (by simp only [CsTypes.showRest, List.length_append, List.length_cons]; omega) rest
    have e : what.text name ++ '<' :: (t.show name ++ ts.showRest name) ++ ['>'] ++ rest =
        what.text name ++ '<' :: (t.show name ++ ts.showRest name ++ '>' :: rest) := by simp
    simp only [CsType.show, e, readTypeAt, h1, h2]
    rw [this t ts rfl]
    simp [h.2.1]

theorem readArgsAt_show : ∀ (ts : CsTypes D), EvalsAll lk name σ ts → ∀ n, 2 * (ts.showRest name).length ≤ n + 2 → ∀ rest t us, ts = .cons t us →
    readArgsAt lk n (t.show name ++ us.showRest name ++ '>' :: rest) = some (rtsOf name σ ts, rest)
  | .nil, _, _, _, _, _, _, e => nomatch e
  | .cons t .nil, h, n, hn, rest, _, _, e => by
    cases e
    simp only [CsTypes.showRest, List.length_append, List.length_cons] at hn
    obtain ⟨n, rfl⟩ : ∃ m, n = m + 1 := ⟨n - 1, by omega⟩
    simp only [EvalsAll] at h
    have := readTypeAt_show t h.1 n (by simp at hn; omega) ('>' :: rest) (fun c r e => by cases e; exact .inl rfl)
    simp [readArgsAt, CsTypes.showRest, this, rtsOf]
  | .cons t (.cons u us), h, n, hn, rest, _, _, e => by
    cases e
    simp only [CsTypes.showRest, List.length_append, List.length_cons] at hn
    obtain ⟨n, rfl⟩ : ∃ m, n = m + 1 := ⟨n - 1, by omega⟩
    have h' := h
    simp only [EvalsAll] at h
    have h1 := readTypeAt_show t h.1 n (by omega) (',' :: ' ' :: (u.show name ++ us.showRest name ++ '>' :: rest))
      (fun c r e => by cases e; exact .inr rfl)
    have h2 := readArgsAt_show (.cons u us) (by simp only [EvalsAll]; exact h.2) n
      (by simp only [CsTypes.showRest, List.length_append, List.length_cons]; omega) rest u us rfl
    have e : t.show name ++ CsTypes.showRest name (.cons u us) ++ '>' :: rest =
        t.show name ++ ',' :: ' ' :: (u.show name ++ us.showRest name ++ '>' :: rest) := by simp [CsTypes.showRest]
    rw [e]
    simp only [readArgsAt, h1]
    rw [List.append_assoc] at h2
    simp [h2, rtsOf]
end

theorem readType_show {P : Project} {f : CsFile} {args : List Rt} {t : CsType D} (h : Evals (look P f args) name σ t) :
    readType P f args (t.show name) = some (rtOf name σ t) := by
  have := readTypeAt_show t h (2 * (t.show name).length + 1) (Nat.le_refl _) [] fun c r e => nomatch e
  rw [List.append_nil] at this
  unfold readType
  rw [this]

end Steit.Gen
