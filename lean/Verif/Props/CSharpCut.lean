import Verif.Lemmas.CSharpCut
import Verif.Props.CSharp
import Verif.Props.Classes

/-!
# The C# client on values cut short: property C70

What the client makes of the first bytes of a value written by Rust: an `EndOfStreamException`, or an object that shows the first items,
entries or fields of the value, all of them whole (`ShowsFirst`, `Verif/Spec/CSharpCut.lean`).
-/

namespace Steit
open Spec Prog

/-- C70: of the bytes of a written value only the first ones arrive. `X.Deserialize(reader)` throws an `EndOfStreamException`, never
another one, or returns an object that shows the first `n` parts of the value for some `n`, having read all bytes. -/
theorem C70_cut_value_shown (t : Ty) (ht : t.WF) (hm : Mirrored t) (hr : Rooted t) (ρ : Bytes → Str) (m : Mode) (μ : Mem) (v : t.El)
    (hl : Legible t v) (hlen : (encode t v).length < 2 ^ 31) :
    ∃ bytes, t.dict.toBytesFrom m μ v = .ok bytes ∧ ∀ p, p <+: bytes →
      t.csDeserializeRoot ρ p = .error .endOfStream ∨
        ∃ n c, t.csDeserializeRoot ρ p = .ok (c, []) ∧ ShowsFirst ρ t n v c :=
  ⟨_, toBytes_eq t ht m μ v (legible_writable t hm v hl) (by omega), fun p hp => by
    rw [csDeserializeRoot_eq ρ t hr]; exact (cutShown ρ t ht hm v hl hlen).1 p hp⟩

/-- C70, the converse: the first `n` parts are shown for some cut, whatever `n` is. So there are cuts that go unnoticed. -/
theorem C70_first_parts_shown (t : Ty) (ht : t.WF) (hm : Mirrored t) (hr : Rooted t) (ρ : Bytes → Str) (m : Mode) (μ : Mem) (v : t.El)
    (hl : Legible t v) (hlen : (encode t v).length < 2 ^ 31) (n : Nat) :
    ∃ bytes p c, t.dict.toBytesFrom m μ v = .ok bytes ∧ p <+: bytes ∧ t.csDeserializeRoot ρ p = .ok (c, []) ∧ ShowsFirst ρ t n v c := by
  obtain ⟨p, c, h1, h2, h3⟩ := (cutShown ρ t ht hm v hl hlen).2 n
  exact ⟨_, p, c, toBytes_eq t ht m μ v (legible_writable t hm v hl) (by omega), h1, by rw [csDeserializeRoot_eq ρ t hr]; exact h2, h3⟩

/-- C70 for a value written with its length in front, as log entries and nested values are: every cut is noticed. -/
theorem C70_cut_nested_noticed (t : Ty) (ht : t.WF) (hm : Mirrored t) (ρ : Bytes → Str) (m : Mode) (μ : Mem) (v : t.El)
    (hl : Legible t v) (hlen : (encode t v).length < 2 ^ 31) :
    ∃ bytes c, t.dict.writeNestedFrom m μ v none false = .ok bytes ∧
      csNested (t.isCsState || t.isCsString) (fun bs => t.csDeserialize ρ bs) bytes = .ok (c, []) ∧ Shows t v c ∧
      ∀ p, p <+: bytes → p ≠ bytes →
        csNested (t.isCsState || t.isCsString) (fun bs => t.csDeserialize ρ bs) p = .error .endOfStream := by
  have hlen' : (leb (8 * 2 ^ 29) ++ framed 2 (encode t v)).length < 2 ^ 32 := by
    have h1 : (leb (8 * 2 ^ 29)).length ≤ 10 := leb_length_le 9 _ (by decide)
    have h2 : (leb (encode t v).length).length ≤ 10 := leb_length_le 9 _ (by omega)
    simp only [framed, if_neg (show ¬ (2 : Nat) = 0 by decide), List.length_append]
    omega
  have hw := writeNested_eq t ht m μ v none false (legible_writable t hm v hl) (by simp) hlen'
  obtain ⟨c, h1, h2⟩ := readable ρ t ht hm v hl hlen
  have h3 := h2.nested hlen []
  rw [List.append_nil] at h3
  refine ⟨_, c, hw, h3, h1, fun p hp hne => csNested_part ρ hlen hp hne⟩

/-- `ShowsFirst` leaves no choice but what `Shows` leaves: all parts of a message are shown by an object that shows the message. -/
theorem showsFirst_all : (fs : Fields) → ∀ {v : fs.El} {c : fs.Cs}, ShowsFirstFields fs fs.count v c ↔ ShowsFields fs v c
  | .nil, _, _ => ⟨fun _ => trivial, fun _ => trivial⟩
  | .cons _ _ t fs, v, c => by
    simp only [Fields.count, ShowsFirstFields, ShowsFields]
    rw [showsFirst_all fs]

/-- The struct `{ #0: Vec<String>, #1: List<u8>, #2: u32 }`. -/
def csCutTy : Ty :=
  .struct true false (.cons 0#32 { noState := true } (.vec .string) (.cons 1#32 {} (.list (.uint .w8)) (.cons 2#32 {} (.uint .w32) .nil)))

/-- `{ ["hi", "you"], [1, 2], 300 }`. -/
def csCutVal : csCutTy.El :=
  ⟨Rt.dflt, [⟨[0x68#8, 0x69#8], rfl⟩, ⟨[0x79#8, 0x6f#8, 0x75#8], rfl⟩], ⟨Rt.dflt, [1#8, 2#8]⟩, 300#32, ()⟩

/-- Its bytes. -/
def csCutBytes : Bytes :=
  [2#8, 7#8, 2#8, 0x68#8, 0x69#8, 3#8, 0x79#8, 0x6f#8, 0x75#8, 10#8, 2#8, 1#8, 2#8, 16#8, 0xac#8, 2#8]

/-- A readable form of a result. -/
def csCutShow (r : Except Exn (csCutTy.Cs × Bytes)) : Except Exn (List (Option Bytes) × List (BitVec 8) × U32 × Bytes) :=
  r.map fun (c, rest) => (c.1.map (fun s => s.map (·.bytes)), c.2.1, c.2.2.1, rest)

theorem csCut_ok : csCutTy.WF ∧ Mirrored csCutTy ∧ Rooted csCutTy ∧ Legible csCutTy csCutVal ∧ encode csCutTy csCutVal = csCutBytes := by
  refine ⟨?_, ?_, trivial, ?_, ?_⟩
  · simp only [csCutTy, Ty.WF, Fields.WF, Fields.tags, Ty.isState]; decide
  · simp [csCutTy, Mirrored, MirroredFields, GoodField]
  · simp [csCutTy, csCutVal, Legible, LegibleFields]
  · simp only [csCutTy, csCutVal, encode, encodeFields, framed, leb_eq_lebF]; decide +kernel

/-- Not vacuous: of its 16 bytes, 0, 9, 13 and 16 can be read, the others end in an exception. -/
example : csCutTy.WF ∧ Mirrored csCutTy ∧ Rooted csCutTy ∧ Legible csCutTy csCutVal ∧ encode csCutTy csCutVal = csCutBytes ∧
    ∀ (ρ : Bytes → Str),
      (∀ n ∈ [1, 2, 3, 4, 5, 6, 7, 8, 10, 11, 12, 14, 15], csCutShow (csCutTy.csDeserializeRoot ρ (csCutBytes.take n)) = .error .endOfStream) ∧
      csCutShow (csCutTy.csDeserializeRoot ρ (csCutBytes.take 0)) = .ok ([], [], 0#32, []) ∧
      csCutShow (csCutTy.csDeserializeRoot ρ (csCutBytes.take 9)) =
        .ok ([some [0x68#8, 0x69#8], some [0x79#8, 0x6f#8, 0x75#8]], [], 0#32, []) ∧
      csCutShow (csCutTy.csDeserializeRoot ρ (csCutBytes.take 13)) =
        .ok ([some [0x68#8, 0x69#8], some [0x79#8, 0x6f#8, 0x75#8]], [1#8, 2#8], 0#32, []) ∧
      csCutShow (csCutTy.csDeserializeRoot ρ (csCutBytes.take 16)) =
        .ok ([some [0x68#8, 0x69#8], some [0x79#8, 0x6f#8, 0x75#8]], [1#8, 2#8], 300#32, []) := by
  obtain ⟨h1, h2, h3, h4, h5⟩ := csCut_ok
  refine ⟨h1, h2, h3, h4, h5, fun ρ => ⟨?_, rfl, rfl, rfl, rfl⟩⟩
  intro n hn
  simp only [List.mem_cons, List.not_mem_nil, or_false] at hn
  rcases hn with rfl | rfl | rfl | rfl | rfl | rfl | rfl | rfl | rfl | rfl | rfl | rfl | rfl <;> rfl

/-- C70 compared with C65: the client is stricter than Rust. After 7 of these bytes Rust reads a first text and the first letter of the
second one, the client throws. -/
theorem C70_rust_reads_more (ρ : Bytes → Str) : ∃ w, csCutTy.dict.deserialize .release (csCutBytes.take 7) = .ok (w, []) ∧
    w.fields.1.map (·.bytes) = [[0x68#8, 0x69#8], [0x79#8]] ∧ w.fields.2.1.items = [] ∧ w.fields.2.2.1 = 0#32 ∧
    csCutTy.csDeserializeRoot ρ (csCutBytes.take 7) = .error .endOfStream :=
  ⟨⟨Rt.dflt, [⟨[0x68#8, 0x69#8], rfl⟩, ⟨[0x79#8], rfl⟩], ⟨⟨0, [1#32]⟩, []⟩, 0#32, ()⟩, rfl, rfl, rfl, rfl, rfl⟩

end Steit

namespace Steit.Gen

open Steit.Gen.Spec Steit.Spec

variable {D : Type} {cm : CaseMap} {setting : CSharpSetting} {S : Declarations D} {root : RTy (Inst D)} {texts : List Text}

/-- C70 for the generated classes as they are run (C69): a program made of the generated files throws or has an object that shows the
first parts of the value. -/
theorem C70_generated_classes (hR : Ready cm setting S root texts) {a : RTy (Inst D)} (ha : Reach S.program.graph.links root a) {t : Ty}
    {k : Nat} (hmod : Models S k a t) (ht : t.WF) (hm : Mirrored t) (ρ : Bytes → Str) (m : Mode) (μ : Prog.Mem) (v : t.El)
    (hl : Legible t v) (hlen : (encode t v).length < 2 ^ 31) {n : Nat} (hn : depth t ≤ n) :
    ∃ bytes, t.dict.toBytesFrom m μ v = .ok bytes ∧ (bytes.length < k → ∀ p, p <+: bytes →
      deserialize (projectOf texts) ρ n (rt S.name a) p = .error .endOfStream ∨
        ∃ i c, deserialize (projectOf texts) ρ n (rt S.name a) p = .ok (valOf t c, []) ∧ ShowsFirst ρ t i v c) := by
  refine ⟨_, toBytes_eq t ht m μ v (legible_writable t hm v hl) (by omega), fun hk p hp => ?_⟩
  have hp' := hp.length_le
  rw [C69_reads hR ha hmod ρ p (by omega) hn]
  rcases (cutShown ρ t ht hm v hl hlen).1 p hp with h | ⟨i, c, h1, h2⟩
  · rw [h]; exact .inl rfl
  · rw [h1]; exact .inr ⟨i, c, rfl, h2⟩

/-- Not vacuous: the generated files of the example of C69, for an item `{ 7, "a" }` cut anywhere. -/
example : ∃ texts : List Text, texts.length = 4 ∧ ∃ bytes, exItem.dict.toBytesFrom .debug (fun _ => 0)
      (⟨Rt.dflt, 7#32, ⟨[0x61#8], rfl⟩, ()⟩ : exItem.El) = .ok bytes ∧ bytes.length = 5 ∧ ∀ (ρ : Bytes → Str) (p : Bytes), p <+: bytes →
    deserialize (projectOf texts) ρ (depth exItem) (.message (lit! "Item") []) p = .error .endOfStream ∨
      ∃ i c, deserialize (projectOf texts) ρ (depth exItem) (.message (lit! "Item") []) p = .ok (valOf exItem c, []) ∧
        ShowsFirst ρ exItem i ⟨Rt.dflt, 7#32, ⟨[0x61#8], rfl⟩, ()⟩ c := by
  obtain ⟨texts, hl, hR⟩ := exDecls_ready
  have hroot : Reach exDecls.program.graph.links exRoot exRoot := .root
  have hmap := Reach.link hroot (n := .map "u32" (.msg (.mk .pair [.msg (.mk .item []), .option (.msg (.mk .shape []))]))) (.head _)
  have hpair := Reach.link hmap (n := .msg (.mk .pair [.msg (.mk .item []), .option (.msg (.mk .shape []))])) (.head _)
  have hitem := Reach.link hpair (n := .msg (.mk .item [])) (.head _)
  have he : encode exItem ⟨Rt.dflt, 7#32, ⟨[0x61#8], rfl⟩, ()⟩ = [0#8, 7#8, 10#8, 1#8, 0x61#8] := by
    simp only [exItem, encode, encodeFields, framed, leb_eq_lebF]; decide +kernel
  have ht : exItem.WF := by simp [exItem, Ty.WF, Fields.WF, Fields.tags, Ty.isState]
  have hm : Mirrored exItem := by simp [exItem, Mirrored, MirroredFields, GoodField]
  have hg : Legible exItem ⟨Rt.dflt, 7#32, ⟨[0x61#8], rfl⟩, ()⟩ := by simp [exItem, Legible, LegibleFields]
  have hb := toBytes_eq exItem ht .debug (fun _ => 0) _ (legible_writable exItem hm _ hg) (by rw [he]; decide)
  refine ⟨texts, hl, _, hb, by rw [he]; rfl, fun ρ p hp => ?_⟩
  obtain ⟨bytes, h1, h2⟩ := C70_generated_classes hR hitem (exItem_models 6) ht hm ρ .debug (fun _ => 0) _ hg (by rw [he]; decide)
    (Nat.le_refl _)
  cases hb.symm.trans h1
  exact h2 (by rw [he]; decide) p hp

end Steit.Gen
