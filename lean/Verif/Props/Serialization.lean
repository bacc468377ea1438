import Verif.Lemmas.Strip
import Verif.Lemmas.Threads

/-!
# Serialization: properties C08, C09, C10

`t : Ty` ranges over all supported types (`Verif/Model/Ty.lean`), `v : t.El` over its values, `μ` over arbitrary contents of
the size caches, `m` over build modes. `encode t v` is the wire format written down directly (`Verif/Spec/Encoding.lean`),
`Writable t v` says that map keys are legal field numbers, `Same t v v'` that the two values differ in runtimes at most.
-/

namespace Steit
open Spec Prog

theorem sound_toBytes (t : Ty) (ht : t.WF) (m : Mode) (v : t.El) (hw : Writable t v)
    (hlen : (encode t v).length < 2 ^ 32) :
    Sound (cellsOf t v) (fun _ => False) (t.dict.toBytes m v) (fun _ bs => bs = encode t v) := by
  have h := serLaw t ht
  have ha : Agrees (cellsOf t v) [] (cellsOf t v) := fun rel => by simp
  unfold Dict.toBytes Dict.steitSerialize
  refine Sound.unwrap ?_
  refine Sound.bind (h.cacheSize m [] v _ _ hw hlen ha) ?_
  intro K n _ hn
  exact h.ser m [] v _ _ hw hlen ha hn.2.below

theorem sound_size (t : Ty) (ht : t.WF) (m : Mode) (v : t.El) (hw : Writable t v)
    (hlen : (encode t v).length < 2 ^ 32) :
    Sound (cellsOf t v) (fun _ => False) (t.dict.computeSize m [] v) (fun _ n => n = (encode t v).length) := by
  have ha : Agrees (cellsOf t v) [] (cellsOf t v) := fun rel => by simp
  exact ((serLaw t ht).size m [] v _ _ hw hlen ha).weaken (fun _ _ _ h => h.1)

theorem toBytes_eq (t : Ty) (ht : t.WF) (m : Mode) (μ : Mem) (v : t.El) (hw : Writable t v)
    (hlen : (encode t v).length < 2 ^ 32) : t.dict.toBytesFrom m μ v = .ok (encode t v) := by
  obtain ⟨K, a, h1, h2, _⟩ := (sound_toBytes t ht m v hw hlen).run (μ := μ) (fun _ h => h.elim)
  unfold Dict.toBytesFrom
  rw [h2, h1]

/-- An example type: a struct with a list of enums and a map, all deriving `State`. -/
def exTy : Ty :=
  .struct true true
    (.cons 1#32 {} (.list (.enum true true (.cons 0#32 {} (.uint .w32) .nil)
      (.cons 5#32 true (.cons 2#32 {} (.map .u8 (.sint .w16)) .nil) .nil)))
    (.cons 9#32 { noState := true } .string .nil))

/-- An example value of it, with arbitrary (wrong) runtimes inside. -/
def exVal : exTy.El :=
  ⟨⟨3, [7#32]⟩, ⟨⟨4, []⟩, [⟨⟨0, []⟩, .inl (300#32, ())⟩, ⟨⟨9, [1#32]⟩, .inr (.inl (⟨⟨1, []⟩, [(7#32, -2#16)]⟩, ()))⟩]⟩,
    ⟨[0x68#8, 0x69#8], rfl⟩, ()⟩

/-- The same data with default runtimes. -/
def exVal' : exTy.El :=
  ⟨Rt.dflt, ⟨Rt.dflt, [⟨Rt.dflt, .inl (300#32, ())⟩, ⟨Rt.dflt, .inr (.inl (⟨Rt.dflt, [(7#32, -2#16)]⟩, ()))⟩]⟩,
    ⟨[0x68#8, 0x69#8], rfl⟩, ()⟩

theorem exTy_wf : exTy.WF := by
  simp [exTy, Ty.WF, Fields.WF, Variants.WF, Fields.tags, Variants.tags, Ty.isState]

theorem exVal_writable : Writable exTy exVal := by
  simp only [exTy, exVal, Writable, WritableFields, WritableVariant, List.mem_cons, List.not_mem_nil, or_false]
  refine ⟨?_, trivial, trivial⟩
  rintro x (rfl | rfl)
  · exact ⟨trivial, trivial⟩
  · refine ⟨?_, trivial⟩
    intro e he
    rw [List.mem_singleton.1 he]
    exact ⟨by decide, trivial⟩

/-! ## C08 -/

/-- C08: `compute_size` is the number of bytes `to_bytes` writes, for every type and value that can be written and whose
encoding is shorter than 2^32 bytes, whatever the size caches held before each call, in both build modes. -/
theorem C08_size_exact (t : Ty) (ht : t.WF) (m m' : Mode) (μ μ' : Mem) (v : t.El) (hw : Writable t v)
    (hlen : (encode t v).length < 2 ^ 32) :
    ∃ bytes, t.dict.toBytesFrom m μ v = .ok bytes ∧ t.dict.sizeFrom m' μ' v = .ok bytes.length := by
  refine ⟨_, toBytes_eq t ht m μ v hw hlen, ?_⟩
  obtain ⟨K, a, h1, h2, _⟩ := (sound_size t ht m' v hw hlen).run (μ := μ') (fun _ h => h.elim)
  unfold Dict.sizeFrom
  rw [h2, h1]

/-- C08 for values nested in others: `compute_size_nested` followed by `serialize_nested` (as the generated code of the
enclosing type calls them) writes exactly the number of bytes computed: the field's key, the length if the type is sized,
and the encoding, or nothing if the field is left out. -/
theorem C08_nested_size_exact (t : Ty) (ht : t.WF) (m : Mode) (μ : Mem) (l : Loc) (v : t.El) (fieldNumber : Option U32)
    (omissible : Bool) (hw : Writable t v) (hfn : ∀ n ∈ fieldNumber, n.toNat < 2 ^ 29)
    (hlen : (leb (8 * 2 ^ 29) ++ framed 2 (encode t v)).length < 2 ^ 32) :
    ∃ size bytes μ', (t.dict.computeSizeNested m l v fieldNumber omissible).run μ = (.ok size, μ') ∧
      ((t.dict.serializeNested m l v fieldNumber omissible).run μ').1 = .ok bytes ∧ size = bytes.length ∧
      bytes = match fieldNumber with
        | none => framed (wireOf t) (encode t v)
        | some n => if omissible && leftOut t v (encode t v) then []
          else leb (n.toNat * 8 + wireOf t) ++ framed (wireOf t) (encode t v) := by
  have h := serLaw t ht
  have hwire := h.wire_eq
  have hwn := t.dict.wire.num_le
  have hfl : (framed (wireOf t) (encode t v)).length ≤ (framed 2 (encode t v)).length := by
    unfold framed
    split <;> simp
  have hspec : (nestedSpec (wireOf t) fieldNumber omissible (leftOut t v (encode t v)) (encode t v)).length < 2 ^ 32 := by
    unfold nestedSpec
    simp only [List.length_append] at hlen
    cases fieldNumber with
    | none => simp only; omega
    | some n =>
      simp only
      split
      · simp
      · have h1 := hfn n rfl
        have h2 := leb_length_le 4 (n.toNat * 8 + wireOf t) (by omega)
        have h3 := leb_length_ge 4 (8 * 2 ^ 29) (by decide)
        simp only [List.length_append]; omega
  let σ : CellMap := fun x => if l <+: x then cellsOf t v (x.drop l.length) else none
  have ha : Agrees σ l (cellsOf t v) := by
    intro rel
    simp only [σ, List.prefix_append, if_true, List.drop_left]
  obtain ⟨K, n, ⟨h1, h1'⟩, h2, h3, _⟩ := (h.sizeNested m l v σ (fun _ => False) fieldNumber omissible hw hfn hspec ha).run
    (μ := μ) (fun _ h => h.elim)
  obtain ⟨K', bs, h4, h5, _⟩ := (h.serNested m l v σ K fieldNumber omissible hw hfn hspec ha h1').run
    (μ := ((t.dict.computeSizeNested m l v fieldNumber omissible).run μ).2) h3
  refine ⟨n, bs, _, ?_, h5, ?_, ?_⟩
  · rw [← h2]
  · rw [h1, h4]
  · rw [h4]
    cases fieldNumber <;> rfl

/-- A map key beyond the largest field number cannot be written: `to_bytes` panics. -/
theorem C08_large_key_panics :
    (Ty.map .u32 .bool).dict.toBytesFrom .release (fun _ => 0) ⟨Rt.dflt, [(0x20000000#32, true)]⟩ = .error .panic := by
  decide

/-- Not vacuous: the hypotheses hold of the example value, whose encoding has 17 bytes. -/
example : exTy.WF ∧ Writable exTy exVal ∧ (encode exTy exVal).length = 17 :=
  ⟨exTy_wf, exVal_writable, by
    simp only [exTy, exVal, encode, encodeFields, encodeVariant, framed, leb_eq_lebF]; decide⟩

/-! ## C09 -/

/-- C09: the bytes are those of the wire-format specification; they do not depend on the contents of the size caches, on
the runtimes inside the value or on the build mode. -/
theorem C09_bytes_only_depend_on_data (t : Ty) (ht : t.WF) (m m' : Mode) (μ μ' : Mem) (v v' : t.El)
    (hs : Same t v v') (hw : Writable t v) (hlen : (encode t v).length < 2 ^ 32) :
    t.dict.toBytesFrom m μ v = .ok (encode t v) ∧ t.dict.toBytesFrom m' μ' v' = .ok (encode t v) := by
  refine ⟨toBytes_eq t ht m μ v hw hlen, ?_⟩
  rw [encode_same hs] at hlen ⊢
  exact toBytes_eq t ht m' μ' v' ((writable_same hs).1 hw) hlen

/-- Not vacuous: the two example values differ (in runtimes only). -/
example : Same exTy exVal exVal' ∧ exVal.rt ≠ exVal'.rt := ⟨rfl, by decide⟩

/-! ## C10 -/

/-- C10, interleaving semantics: any number of threads call `to_bytes` on one shared value, starting from any contents of
the size caches. In every reachable state, a thread that has finished has returned the specified bytes, none has failed,
and some thread can continue unless all have finished; no schedule runs forever. -/
theorem C10_concurrent_to_bytes (t : Ty) (ht : t.WF) (m : Mode) (μ : Mem) (v : t.El) (n : Nat) (hw : Writable t v)
    (hlen : (encode t v).length < 2 ^ 32) (s : Sys Bytes)
    (hs : Sys.Steps ⟨μ, List.replicate n (t.dict.toBytes m v)⟩ s) :
    (∀ p ∈ s.threads, ∀ bytes, p = .pure bytes → bytes = encode t v) ∧
    (∀ p ∈ s.threads, ∀ e, p ≠ .fail e) ∧
    ((∀ s', ¬ Sys.Step s s') → s.threads = List.replicate n (.pure (encode t v))) ∧
    Acc (fun s' s => Sys.Step s s') s := by
  have h0 : SysOk (cellsOf t v) (fun bs => bs = encode t v)
      (⟨μ, List.replicate n (t.dict.toBytes m v)⟩ : Sys Bytes) := by
    intro p hp
    rw [List.eq_of_mem_replicate hp]
    exact ⟨fun _ => False, fun _ h => h.elim, sound_toBytes t ht m v hw hlen⟩
  have h1 := h0.steps hs
  have hlen' : s.threads.length = n := by
    clear h1
    induction hs with
    | refl => simp
    | tail _ hstep ih =>
      cases hstep with
      | mk _ _ => rw [List.length_set]; exact ih
  refine ⟨?_, ?_, ?_, Sys.terminates s⟩
  · intro p hp bytes he
    obtain ⟨K, _, hsound⟩ := h1 p hp
    subst he
    exact hsound
  · intro p hp e he
    obtain ⟨K, _, hsound⟩ := h1 p hp
    subst he
    exact hsound
  · intro hstuck
    apply List.eq_replicate_iff.2 ⟨hlen', ?_⟩
    intro p hp
    obtain ⟨i, hi, rfl⟩ := List.getElem_of_mem hp
    rcases h1.progress (List.getElem?_eq_getElem hi) with ⟨a, ha, hq⟩ | ⟨s', hs'⟩
    · rw [ha, hq]
    · exact absurd hs' (hstuck s')

/-- C10 with relaxed atomics, as in the code (`Ordering::Relaxed`): a load may return any store not older than what the
thread already observed of the cell. The same conclusions. -/
theorem C10_concurrent_to_bytes_relaxed (t : Ty) (ht : t.WF) (m : Mode) (μ : Mem) (v : t.El) (n : Nat)
    (hw : Writable t v) (hlen : (encode t v).length < 2 ^ 32) (s : RSys Bytes)
    (hs : RSys.Steps (RSys.start μ (List.replicate n (t.dict.toBytes m v))) s) :
    (∀ p ∈ s.threads, ∀ bytes, p.prog = .pure bytes → bytes = encode t v) ∧
    (∀ p ∈ s.threads, ∀ e, p.prog ≠ .fail e) ∧
    ((∀ s', ¬ RSys.Step s s') → ∀ p ∈ s.threads, p.prog = .pure (encode t v)) ∧
    Acc (fun s' s => RSys.Step s s') s := by
  have h0 : RSysOk (cellsOf t v) (fun bs => bs = encode t v)
      (RSys.start μ (List.replicate n (t.dict.toBytes m v))) := by
    apply RSysOk.start
    intro p hp
    rw [List.eq_of_mem_replicate hp]
    exact sound_toBytes t ht m v hw hlen
  have h1 := h0.steps hs
  refine ⟨?_, ?_, ?_, RSys.terminates s⟩
  · intro p hp bytes he
    obtain ⟨_, K, _, hsound⟩ := h1.2.2 p hp
    rw [he] at hsound
    exact hsound
  · intro p hp e he
    obtain ⟨_, K, _, hsound⟩ := h1.2.2 p hp
    rw [he] at hsound
    exact hsound
  · intro hstuck p hp
    obtain ⟨i, hi, rfl⟩ := List.getElem_of_mem hp
    rcases h1.progress (List.getElem?_eq_getElem hi) with ⟨a, ha, hq⟩ | ⟨s', hs'⟩
    · rw [ha, hq]
    · exact absurd hs' (hstuck s')

/-- Not vacuous: serializing the example value starts with a store to a cache, so threads do interact through memory. -/
example : ∃ l n k, exTy.dict.toBytes .debug exVal = .store l n k := ⟨_, _, _, rfl⟩

end Steit
