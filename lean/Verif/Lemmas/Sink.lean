import Verif.Spec.Sink
import Verif.Lemmas.Sound

/-! # Writing to a sink comes to collecting the bytes -/

namespace Steit
open Spec Prog

/-! ## Programs -/

namespace Prog

theorem bind_assoc' {α β γ : Type} (p : Prog α) (f : α → Prog β) (g : β → Prog γ) :
    (p >>= f) >>= g = p >>= fun a => f a >>= g := by
  induction p with
  | pure a => rfl
  | fail e => rfl
  | load l k ih => exact congrArg (load l) (funext ih)
  | store l n k ih => exact congrArg (store l n) ih

theorem bind_pure' {α : Type} (p : Prog α) : (p >>= pure) = p := by
  induction p with
  | pure a => rfl
  | fail e => rfl
  | load l k ih => exact congrArg (load l) (funext ih)
  | store l n k ih => exact congrArg (store l n) ih

theorem bind_ext {α β : Type} (p : Prog α) {f g : α → Prog β} (h : ∀ a, f a = g a) : (p >>= f) = p >>= g := by
  rw [show f = g from funext h]

theorem pure_bind' {α β : Type} (a : α) (f : α → Prog β) : ((Pure.pure a : Prog α) >>= f) = f a := rfl

end Prog

namespace WProg

/-- The program that collects what is written. -/
def collect : WProg Unit → Prog Bytes
  | pure _ => .pure []
  | fail e => .fail e
  | load l k => .load l (fun n => collect (k n))
  | store l n k => .store l n (collect k)
  | write bs k => collect k >>= fun r => .pure (bs ++ r)

theorem collect_bind (p : WProg Unit) (f : Unit → WProg Unit) :
    collect (p >>= f) = (do let a ← collect p; let b ← collect (f ()); Pure.pure (a ++ b)) := by
  induction p with
  | pure a => exact (Prog.bind_pure' (collect (f ()))).symm
  | fail e => rfl
  | load l k ih => exact congrArg (Prog.load l) (funext ih)
  | store l n k ih => exact congrArg (Prog.store l n) ih
  | write bs k ih =>
    show (collect (k >>= f) >>= fun r => Prog.pure (bs ++ r)) = _
    rw [ih]
    show _ = (collect k >>= fun r => Prog.pure (bs ++ r)) >>= _
    simp only [Prog.bind_assoc']
    refine Prog.bind_ext _ fun a => ?_
    show _ = collect (f ()) >>= _
    refine Prog.bind_ext _ fun b => ?_
    show Prog.pure (bs ++ (a ++ b)) = Prog.pure (bs ++ a ++ b)
    rw [List.append_assoc]

theorem collect_lift_bind {α : Type} (p : Prog α) (f : α → WProg Unit) :
    collect (lift p >>= f) = p >>= fun a => collect (f a) := by
  induction p with
  | pure a => rfl
  | fail e => rfl
  | load l k ih => exact congrArg (Prog.load l) (funext ih)
  | store l n k ih => exact congrArg (Prog.store l n) ih

theorem collect_writeAll (bs : Bytes) : collect (writeAll bs) = Prog.pure bs := by
  show Prog.pure (bs ++ []) = _
  rw [List.append_nil]

theorem collect_writeEach (bs : Bytes) : collect (writeEach bs) = Prog.pure bs := by
  induction bs with
  | nil => rfl
  | cons b bs ih =>
    show (collect (writeEach bs) >>= fun r => Prog.pure ([b] ++ r)) = _
    rw [ih]
    rfl

end WProg

/-! ## Types -/

open WProg

/-- The writer `w` writes what `d` collects. -/
def Writes {α : Type} (d : Dict α) (w : Writing α) : Prop := ∀ m l v, collect (w m l v) = d.serializeCached m l v

section
variable {α : Type} {d : Dict α} {w : Writing α}

theorem nested_collect (h : Writes d w) (m : Mode) (l : Loc) (v : α) (n : Option U32) (o : Bool) :
    collect (serializeNestedW d w m l v n o) = d.serializeNested m l v n o := by
  unfold serializeNestedW Dict.serializeNested
  rw [collect_lift_bind]
  refine Prog.bind_ext _ fun omitted => ?_
  cases omitted with
  | true => rfl
  | false =>
    simp only [Bool.false_eq_true, if_false]
    have hp : ∀ tag, (collect (match d.wire with
        | .varint => w m l v
        | .sized => do
          let size ← lift (d.cachedSize m l v)
          writeEach (putVarint (BitVec.ofNat 32 size))
          w m l v) >>= fun r => Prog.pure (tag ++ r)) = (do
        let prefixed ← (match d.wire with
          | .varint => Pure.pure []
          | .sized => do
            let size ← d.cachedSize m l v
            Pure.pure (putVarint (BitVec.ofNat 32 size)))
        let payload ← d.serializeCached m l v
        Pure.pure (tag ++ prefixed ++ payload)) := by
      intro tag
      cases d.wire with
      | varint =>
        rw [h, Prog.pure_bind', List.append_nil]
        rfl
      | sized =>
        rw [collect_lift_bind]
        simp only [Prog.bind_assoc', Prog.pure_bind', collect_bind, collect_writeEach]
        refine Prog.bind_ext _ fun size => ?_
        rw [h m l v]
        show (d.serializeCached m l v >>= _ : Prog Bytes) = _
        refine Prog.bind_ext _ fun r => ?_
        show Prog.pure _ = Prog.pure _
        simp
    cases n with
    | none =>
      have := hp []
      simp only [List.nil_append] at this
      rw [show ∀ p : Prog Bytes, (p >>= fun b => Prog.pure b) = p from Prog.bind_pure'] at this
      exact this
    | some k =>
      simp only
      rw [collect_lift_bind]
      simp only [Prog.bind_assoc', Prog.pure_bind']
      refine Prog.bind_ext _ fun tag => ?_
      rw [collect_bind, collect_writeEach]
      exact hp _

theorem items_collect (h : Writes d w) (m : Mode) (l : Loc) (xs : List α) :
    ∀ i, collect (writeItems d w m l i xs) = serializeItems d m l i xs := by
  induction xs with
  | nil => exact fun _ => rfl
  | cons x xs ih =>
    intro i
    unfold writeItems serializeItems
    rw [collect_bind, nested_collect h]
    refine Prog.bind_ext _ fun a => ?_
    rw [ih]

theorem option_collect (h : Writes d w) : Writes (optionDict d) (writeOption d w) := by
  intro m l o
  cases o with
  | none => rfl
  | some x => exact nested_collect h m _ x none false

theorem mapEntries_collect (h : Writes d w) (m : Mode) (l : Loc) (es : List (U32 × α)) :
    ∀ i, collect (writeMapEntries d w m l i es) = serializeMapEntries d m l i es := by
  induction es with
  | nil => exact fun _ => rfl
  | cons e es ih =>
    obtain ⟨k, x⟩ := e
    intro i
    unfold writeMapEntries serializeMapEntries
    rw [collect_bind, nested_collect h]
    refine Prog.bind_ext _ fun a => ?_
    rw [ih]

end

theorem entries_collect {κ ν : Type} {dk : Dict κ} {wk : Writing κ} {dv : Dict ν} {wv : Writing ν} (hk : Writes dk wk)
    (hv : Writes dv wv) (m : Mode) (l : Loc) (es : List (κ × ν)) :
    ∀ i, collect (writeEntries dk wk dv wv m l i es) = serializeEntries dk dv m l i es := by
  induction es with
  | nil => exact fun _ => rfl
  | cons e es ih =>
    obtain ⟨k, x⟩ := e
    intro i
    unfold writeEntries serializeEntries
    rw [collect_bind, nested_collect hk]
    refine Prog.bind_ext _ fun a => ?_
    rw [collect_bind, nested_collect hv]
    simp only [Prog.bind_assoc', Prog.pure_bind']
    refine Prog.bind_ext _ fun b => ?_
    rw [ih]
    refine Prog.bind_ext _ fun c => ?_
    show Prog.pure _ = Prog.pure _
    simp

mutual
/-- What a type writes to a sink is what it collects. -/
theorem writes (t : Ty) : Writes t.dict t.writes := by
  intro m l v
  match t, v with
  | .uint _, v => exact collect_writeEach _
  | .sint _, v => exact collect_writeEach _
  | .bool, v => exact collect_writeAll _
  | .string, v => exact collect_writeAll _
  | .bytes, v => exact collect_writeAll _
  | .vec t, v => exact items_collect (writes t) m l v 0
  | .array _ t, v => exact items_collect (writes t) m l v.1 0
  | .tuple ts, v => exact tys_collect ts m l v 0
  | .option t, v => exact option_collect (writes t) m l v
  | .box t, v => exact writes t m l v
  | .hashMap k x, v => exact entries_collect (writes k) (writes x) m l v 0
  | .list t, v => exact items_collect (writes t) m l v.items 0
  | .map _ t, v => exact mapEntries_collect (writes t) m l v.entries 0
  | .struct ds c fs, v =>
    have h := fields_collect fs ds m l v.fields 0
    cases ds <;> exact h
  | .enum ds c fs vs, ⟨rt, .inl x⟩ =>
    have h := fields_collect fs ds m l x 0
    have : collect ((Ty.enum ds c fs vs).writes m l ⟨rt, .inl x⟩) =
        ((fs.dict ds).serialize m l 0 x >>= fun p => Prog.pure (putVarint 0#32 ++ p)) := by
      simp only [Ty.writes]
      rw [collect_bind, collect_writeEach, h]
      rfl
    rw [this]
    cases ds <;> rfl
  | .enum ds c fs vs, ⟨rt, .inr x⟩ =>
    have h := variants_collect vs ds m l x
    cases ds <;> exact h

theorem tys_collect (ts : Tys) (m : Mode) (l : Loc) (v : ts.El) (i : Nat) : collect (ts.writes m l i v) = ts.dict.serialize m l i v := by
  match ts, v with
  | .nil, v => rfl
  | .cons t ts, v =>
    simp only [Tys.writes, Tys.dict, tupleCons]
    rw [collect_bind, nested_collect (writes t), tys_collect ts]

theorem fields_collect (fs : Fields) (ds : Bool) (m : Mode) (l : Loc) (v : fs.El) (i : Nat) :
    collect (fs.writes m l i v) = (fs.dict ds).serialize m l i v := by
  match fs, v with
  | .nil, v => rfl
  | .cons tag attrs t fs, v =>
    simp only [Fields.writes, Fields.dict, fieldsCons]
    rw [collect_bind, nested_collect (writes t), fields_collect fs ds]

theorem variants_collect (vs : Variants) (ds : Bool) (m : Mode) (l : Loc) (v : vs.El) :
    collect (vs.writes m l v) = (do
      let payload ← (vs.dict ds).serialize m l v
      Pure.pure (putVarint ((vs.dict ds).tagOf v) ++ payload)) := by
  match vs, v with
  | .nil, v => exact nomatch v
  | .cons tag c fs vs, .inl x =>
    simp only [Variants.writes]
    rw [collect_bind, collect_writeEach, fields_collect fs ds]
    rfl
  | .cons tag c fs vs, .inr x =>
    simp only [Variants.writes]
    exact variants_collect vs ds m l x
end

/-! ## Sinks -/

section
variable {σ : Type} {S : Sink σ} {got : σ → Bytes}

theorem writeAll_spec (hS : Accepts S got) : ∀ (fuel : Nat) (bs : Bytes) (s : σ), bs.length ≤ fuel →
    (∃ s', S.writeAll fuel bs s = (.ok (), s') ∧ got s' = got s ++ bs) ∨
    (∃ s' a b, S.writeAll fuel bs s = (.error .sink, s') ∧ bs = a ++ b ∧ b ≠ [] ∧ got s' = got s ++ a)
  | fuel, [], s, _ => .inl ⟨s, by cases fuel <;> rfl, by simp⟩
  | 0, _ :: _, _, h => by simp at h
  | fuel + 1, b :: bs, s, hl => by
    have h := hS (b :: bs) s
    unfold Sink.writeAll
    generalize S.write (b :: bs) s = r at h
    obtain ⟨r, s'⟩ := r
    cases r with
    | error e => exact .inr ⟨s', [], b :: bs, rfl, rfl, by simp, by simpa using h⟩
    | ok n =>
      obtain ⟨h1, h2⟩ := h
      simp only
      split
      · next hn =>
        subst hn
        exact .inr ⟨s', [], b :: bs, rfl, rfl, by simp, by simpa using h2⟩
      · next hn =>
        rw [if_pos (by simpa using h1)]
        have hlen : ((b :: bs).drop n).length ≤ fuel := by rw [List.length_drop]; omega
        rcases writeAll_spec hS fuel ((b :: bs).drop n) s' hlen with ⟨s2, h3, h4⟩ | ⟨s2, x, y, h3, h4, h5, h6⟩
        · exact .inl ⟨s2, h3, by rw [h4, h2, List.append_assoc, List.take_append_drop]⟩
        · refine .inr ⟨s2, (b :: bs).take n ++ x, y, h3, ?_, h5, by rw [h6, h2, List.append_assoc]⟩
          rw [List.append_assoc, ← h4, List.take_append_drop]

theorem writeAll_reliable (hS : Reliable S) : ∀ (fuel : Nat) (bs : Bytes) (s : σ) (s' : σ), S.writeAll fuel bs s ≠ (.error .sink, s')
  | fuel, [], s, s', h => by cases fuel <;> cases h
  | 0, _ :: _, _, _, h => by cases h
  | fuel + 1, b :: bs, s, s', h => by
    obtain ⟨n, s1, h1, h2⟩ := hS (b :: bs) s (by simp)
    rw [Sink.writeAll, h1] at h
    simp only at h
    rw [if_neg (by omega)] at h
    split at h
    · exact writeAll_reliable hS fuel _ _ _ h
    · cases h

/-- Running a writing program on a sink: what it collects arrives, or the sink fails after a part of it. -/
theorem run_spec (hS : Accepts S got) (p : WProg Unit) : ∀ (μ : Mem) (s : σ) (bs : Bytes) (μ' : Mem),
    p.collect.run μ = (.ok bs, μ') →
    (∃ s', p.run S μ s = (.ok (), μ', s') ∧ got s' = got s ++ bs) ∨
    (∃ μ1 s' a b, p.run S μ s = (.error .sink, μ1, s') ∧ bs = a ++ b ∧ b ≠ [] ∧ got s' = got s ++ a) := by
  induction p with
  | pure a =>
    intro μ s bs μ' h
    cases h
    exact .inl ⟨s, rfl, by simp⟩
  | fail e => intro μ s bs μ' h; cases h
  | load l k ih => exact fun μ s bs μ' h => ih (μ l) μ s bs μ' h
  | store l n k ih => exact fun μ s bs μ' h => ih _ s bs μ' h
  | write b k ih =>
    intro μ s bs μ' h
    have h : (k.collect >>= fun r => Prog.pure (b ++ r)).run μ = (.ok bs, μ') := h
    rw [Prog.run_bind] at h
    cases hk : k.collect.run μ with
    | mk r μ2 =>
      rw [hk] at h
      cases r with
      | error e => cases h
      | ok r =>
        cases h
        unfold WProg.run
        rcases writeAll_spec hS b.length b s (Nat.le_refl _) with ⟨s1, h1, h2⟩ | ⟨s1, x, y, h1, h2, h3, h4⟩
        · rw [h1]
          simp only
          rcases ih μ s1 r _ hk with ⟨s2, h3, h4⟩ | ⟨μ3, s2, x, y, h3, h4, h5, h6⟩
          · exact .inl ⟨s2, h3, by rw [h4, h2, List.append_assoc]⟩
          · exact .inr ⟨μ3, s2, b ++ x, y, h3, by rw [h4, List.append_assoc], h5, by rw [h6, h2, List.append_assoc]⟩
        · rw [h1]
          exact .inr ⟨μ, s1, x, y ++ r, rfl, by rw [h2, List.append_assoc], by simp [h3], h4⟩

/-- A reliable sink never is the reason of an error. -/
theorem run_reliable {α : Type} (hS : Reliable S) (p : WProg α) : ∀ (μ μ' : Mem) (s s' : σ), p.run S μ s ≠ (.error .sink, μ', s') := by
  induction p with
  | pure a => intro μ μ' s s' h; cases h
  | fail e => intro μ μ' s s' h; cases h
  | load l k ih => exact fun μ μ' s s' h => ih (μ l) μ μ' s s' h
  | store l n k ih => exact fun μ μ' s s' h => ih _ μ' s s' h
  | write b k ih =>
    intro μ μ' s s' h
    unfold WProg.run at h
    have hr := writeAll_reliable hS b.length b s
    generalize S.writeAll b.length b s = r at h hr
    obtain ⟨r, s1⟩ := r
    cases r with
    | ok _ => exact ih μ μ' s1 s' h
    | error e =>
      cases e with
      | sink => exact hr s1 rfl
      | lib e => cases h

end

theorem vecSink_writeAll (bs s : Bytes) : vecSink.writeAll bs.length bs s = (.ok (), s ++ bs) := by
  cases bs with
  | nil => simp [Sink.writeAll]
  | cons b bs =>
    show (match vecSink.write (b :: bs) s with
      | (.error _, s) => (Except.error OutErr.sink, s)
      | (.ok n, s) =>
        if n = 0 then (.error .sink, s)
        else if n ≤ bs.length + 1 then vecSink.writeAll bs.length ((b :: bs).drop n) s
        else (.error (.lib .panic), s)) = _
    simp only [vecSink, List.length_cons, if_neg (Nat.succ_ne_zero _), Nat.le_refl, if_true, List.drop_succ_cons, List.drop_length]
    rw [Sink.writeAll]

theorem run_vecSink (p : WProg Unit) : ∀ (μ : Mem) (s : Bytes), match p.collect.run μ with
    | (.ok bs, μ') => p.run vecSink μ s = (.ok (), μ', s ++ bs)
    | (.error e, μ') => ∃ s', p.run vecSink μ s = (.error (.lib e), μ', s') := by
  induction p with
  | pure a => exact fun μ s => by simp [collect, Prog.run, WProg.run]
  | fail e => exact fun μ s => ⟨s, rfl⟩
  | load l k ih => exact fun μ s => ih (μ l) μ s
  | store l n k ih => exact fun μ s => ih _ s
  | write b k ih =>
    intro μ s
    show match (k.collect >>= fun r => Prog.pure (b ++ r)).run μ with
      | (.ok bs, μ') => _
      | (.error e, μ') => _
    rw [Prog.run_bind]
    have h := ih μ (s ++ b)
    unfold WProg.run
    rw [vecSink_writeAll]
    cases hk : k.collect.run μ with
    | mk r μ2 =>
      rw [hk] at h
      cases r with
      | error e => exact h
      | ok r =>
        have h : WProg.run vecSink k μ (s ++ b) = (Except.ok (), μ2, s ++ b ++ r) := h
        rw [List.append_assoc] at h
        exact h

theorem steitSerialize_collect (t : Ty) (m : Mode) (l : Loc) (v : t.El) :
    collect (steitSerializeW t.dict t.writes m l v) = t.dict.steitSerialize m l v := by
  unfold steitSerializeW Dict.steitSerialize
  rw [collect_lift_bind]
  exact Prog.bind_ext _ fun _ => writes t m l v

theorem send_collect (m : Mode) (e : Entry) :
    collect (e.send m) = (do
      let _ ← logEntryTy.dict.cacheSize m [] e.toEl
      logEntryTy.dict.serializeNested m [] e.toEl none false) := by
  unfold Entry.send
  rw [collect_lift_bind]
  exact Prog.bind_ext _ fun _ => nested_collect (writes logEntryTy) m [] e.toEl none false

theorem run_unwrap_eq {α : Type} (p : Prog α) : ∀ (μ : Mem), p.unwrap.run μ = match p.run μ with
    | (.ok a, μ') => (.ok a, μ')
    | (.error _, μ') => (.error .panic, μ') := by
  induction p with
  | pure a => exact fun μ => rfl
  | fail e => exact fun μ => rfl
  | load l k ih => exact fun μ => ih (μ l) μ
  | store l n k ih => exact fun μ => ih _

theorem run_unwrap {α : Type} (p : Prog α) : ∀ (μ : Mem) (a : α), (p.unwrap.run μ).1 = .ok a → ∃ μ', p.run μ = (.ok a, μ') := by
  induction p with
  | pure a => intro μ b h; cases h; exact ⟨μ, rfl⟩
  | fail e => intro μ b h; cases h
  | load l k ih => exact fun μ a h => ih (μ l) μ a h
  | store l n k ih => exact fun μ a h => ih _ a h

theorem run_bind_unwrap {α β : Type} (p : Prog α) (f : α → Prog β) : ∀ (μ : Mem) (b : β),
    ((p >>= fun a => (f a).unwrap).run μ).1 = .ok b → ∃ μ', (p >>= f).run μ = (.ok b, μ') := by
  induction p with
  | pure a => exact fun μ b h => run_unwrap (f a) μ b h
  | fail e => intro μ b h; cases h
  | load l k ih => exact fun μ b h => ih (μ l) μ b h
  | store l n k ih => exact fun μ b h => ih _ b h

end Steit
