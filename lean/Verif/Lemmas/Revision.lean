import Verif.Lemmas.Boundary
import Verif.Lemmas.DecTy
import Verif.Spec.Revision

/-! # Reading data written with another revision of the type -/

namespace Steit
open Spec

theorem skip_field (m : Mode) (t : Ty) (x : t.El) (rest : Bytes) (hs : Skipped m t x)
    (hlo : leftOut t x (encode t x) = false) (hlen : (framed (wireTypeOf t).num (encode t x)).length < 2 ^ 63) :
    skipField m (wireTypeOf t) (framed (wireTypeOf t).num (encode t x) ++ rest) = .ok rest := by
  have hn : (wireTypeOf t).num = wireOf t := by
    unfold wireTypeOf; rcases wireOf_cases t with h | h <;> rw [h] <;> rfl
  rw [hn] at hlen ⊢
  have hc := framed_chunk t x (by omega)
  refine skipField_skippable m ⟨0#32, wireTypeOf t, leb (wireOf t), framed (wireOf t) (encode t x)⟩ ?_ ?_ rest
  · refine ⟨show (0#32).toNat < 2 ^ 29 by decide, leb_isVarint _, leb_length_le 4 _ ?_, by simp [lebValue_leb, hn], hc⟩
    rcases wireOf_cases t with h | h <;> rw [h] <;> decide
  · unfold WField.Skippable wireTypeOf
    rcases wireOf_cases t with h | h
    · simp only [h, if_true, framed]
      rcases hs with hs | hs | hs | hs
      · rw [hs] at hlo; cases hlo
      · exact .inl hs
      · exact absurd h hs
      · exact .inr hs
    · simp only [h, show ¬ (2 : Nat) = 0 by decide, if_false]
      rw [h] at hlen
      omega

theorem Spec.RevFields.rd_tags : (fs : RevFields) → ∀ t ∈ fs.rd.tags, t ∈ fs.tags
  | .nil, _, h => h
  | .keep tag _ _ _ fs, t, h => by
    rcases List.mem_cons.1 h with h | h
    · exact h ▸ List.mem_cons_self
    · exact List.mem_cons_of_mem _ (fs.rd_tags t h)
  | .add tag _ _ fs, t, h => List.mem_cons_of_mem _ (fs.rd_tags t h)
  | .drop tag _ _ fs, t, h => by
    rcases List.mem_cons.1 h with h | h
    · exact h ▸ List.mem_cons_self
    · exact List.mem_cons_of_mem _ (fs.rd_tags t h)
  | .retype tag _ _ _ _ fs, t, h => by
    rcases List.mem_cons.1 h with h | h
    · exact h ▸ List.mem_cons_self
    · exact List.mem_cons_of_mem _ (fs.rd_tags t h)

theorem Spec.RevFields.extra_tags : (fs : RevFields) → ∀ t ∈ fs.extra, t ∈ fs.tags
  | .nil, _, h => h
  | .keep tag _ _ _ fs, t, h => List.mem_cons_of_mem _ (fs.extra_tags t h)
  | .add tag _ _ fs, t, h => by
    rcases List.mem_cons.1 h with h | h
    · exact h ▸ List.mem_cons_self
    · exact List.mem_cons_of_mem _ (fs.extra_tags t h)
  | .drop tag _ _ fs, t, h => List.mem_cons_of_mem _ (fs.extra_tags t h)
  | .retype tag _ _ _ _ fs, t, h => List.mem_cons_of_mem _ (fs.extra_tags t h)

/-- What is empty is at its default, whether or not it is left out for being empty. -/
theorem ReadLaw.emptyLo {σ α : Type} {d : Dict α} {wire : Nat} {enc : σ → Bytes} {lo : σ → Bool} {strip : α → α} {see : σ → α}
    {carried : Mode → σ → Prop} (h : ReadLaw d wire enc lo strip see carried) :
    ReadLaw d wire enc (fun v => (enc v).isEmpty) strip see carried :=
  { h with lo_dflt := fun v rt hc hl => h.empty_dflt v rt hc (List.isEmpty_iff.1 hl) }

theorem ReadLaw.boxed {σ α : Type} {d : Dict α} {wire : Nat} {enc : σ → Bytes} {lo : σ → Bool} {strip : α → α} {see : σ → α}
    {carried : Mode → σ → Prop} (h : ReadLaw d wire enc lo strip see carried) :
    ReadLaw (boxDict d) wire enc lo strip see carried :=
  ⟨h.wire_eq, h.dflt_eq, h.init_strip, h.enc_ne, h.lo_dflt, h.empty_dflt, h.roundWide⟩

theorem seeVariant_seen (m : Mode) : (vs : RevVariants) → (v : vs.wr.El) → SeenVariant m vs v → ∃ y, seeVariant vs v = some y
  | .nil, v, _ => nomatch v
  | .keep _ _ _ fs vs, .inl x, _ => ⟨_, rfl⟩
  | .keep _ _ _ fs vs, .inr x, h => by
    obtain ⟨y, hy⟩ := seeVariant_seen m vs x h
    exact ⟨.inr y, by simp only [seeVariant, hy]; rfl⟩
  | .add _ _ _ vs, .inl x, h => absurd h id
  | .add _ _ _ vs, .inr x, h => seeVariant_seen m vs x h
  | .drop _ _ _ vs, v, h => by
    obtain ⟨y, hy⟩ := seeVariant_seen m vs v h
    exact ⟨.inr y, by simp only [seeVariant, hy]; rfl⟩

theorem readLaw_uint (w w' : Width) (h : w.bits ≤ w'.bits) :
    ReadLaw (uintDict w') 0 (fun v : BitVec w.bits => leb v.toNat) (fun v => decide (v = 0#w.bits)) id
      (fun v => v.setWidth w'.bits) (fun _ _ => True) := by
  have hn : ∀ v : BitVec w.bits, (v.setWidth w'.bits).toNat = v.toNat := by
    intro v
    rw [BitVec.toNat_setWidth, Nat.mod_eq_of_lt (Nat.lt_of_lt_of_le v.isLt (Nat.pow_le_pow_right (by decide) h))]
  refine ((decLaw_uint w').comap (fun v : BitVec w.bits => v.setWidth w'.bits)).congr rfl ?_ ?_ rfl rfl rfl
  · funext v; rw [hn]
  · funext v
    refine decide_eq_decide.2 ⟨fun hv => ?_, fun hv => ?_⟩
    · apply BitVec.eq_of_toNat_eq; rw [← hn, hv]; simp
    · rw [hv]; simp

theorem readLaw_sint (w w' : Width) (h : w.bits ≤ w'.bits) :
    ReadLaw (sintDict w') 0 (fun v : BitVec w.bits => leb (zigzagNat v.toInt)) (fun v => decide (v = 0#w.bits)) id
      (fun v => v.signExtend w'.bits)
      (fun _ v => -(2 ^ (w'.bits - 2) : Int) ≤ v.toInt ∧ v.toInt < (2 ^ (w'.bits - 2) : Int)) := by
  have hn : ∀ v : BitVec w.bits, (v.signExtend w'.bits).toInt = v.toInt :=
    fun v => BitVec.toInt_signExtend_of_le h
  refine ((decLaw_sint w').comap (fun v : BitVec w.bits => v.signExtend w'.bits)).congr rfl ?_ ?_ rfl rfl ?_
  · funext v; rw [hn]
  · funext v
    refine decide_eq_decide.2 ⟨fun hv => ?_, fun hv => ?_⟩
    · apply BitVec.eq_of_toInt_eq; rw [← hn, hv]; simp
    · apply BitVec.eq_of_toInt_eq; rw [hn, hv]; simp
  · funext _ v; rw [hn]

theorem readLaw_flag (w : Width) :
    ReadLaw (uintDict w) 0 (fun v : Bool => leb v.toNat) (fun v => decide (v = false)) id
      (fun v => BitVec.ofNat w.bits v.toNat) (fun _ _ => True) := by
  refine ((decLaw_uint w).comap (fun v : Bool => BitVec.ofNat w.bits v.toNat)).congr rfl ?_ ?_ rfl rfl rfl
  · funext v; cases w <;> cases v <;> rfl
  · funext v; cases w <;> cases v <;> rfl

theorem leftOut_sized {t : Ty} (h : wireOf t = 2) (v : t.El) (bs : Bytes) : leftOut t v bs = bs.isEmpty := by
  cases t <;> first | rfl | cases h

theorem wireTypeOf_ne {t : Ty} {t' : Ty} (ht' : t'.WF) (h : wireOf t ≠ wireOf t') : wireTypeOf t ≠ t'.dict.wire := by
  intro he
  have h1 := (decLaw t' ht').wire_eq
  rw [← he] at h1
  apply h
  rw [← h1]
  unfold wireTypeOf
  rcases wireOf_cases t with h | h <;> rw [h] <;> rfl

mutual
theorem readLaw : (r : Rev) → r.wr.WF → r.rd.WF → r.Rules →
    ReadLaw r.rd.dict (wireOf r.wr) (encode r.wr) (fun v => leftOut r.wr v (encode r.wr v)) (strip r.rd) (see r)
      (fun m => Seen m r)
  | .same t, h, _, _ => decLaw t h
  | .uint w w', _, _, hr => (readLaw_uint w w' hr).congr rfl rfl (by funext v; simp [leftOut]; rfl) rfl rfl rfl
  | .sint w w', _, _, hr => (readLaw_sint w w' hr).congr rfl rfl (by funext v; simp [leftOut]; rfl) rfl rfl rfl
  | .flag w, _, _, _ => (readLaw_flag w).congr rfl rfl (by funext v; cases v <;> rfl) rfl rfl rfl
  | .hide t, _, _, hr => ((decLaw .bytes trivial).comap (encode t)).congr hr.symm rfl
    (by funext v; exact (leftOut_sized hr v _).symm) rfl rfl rfl
  | .vec r, h, h', hr => readLaw_vec (readLaw r h h' hr)
  | .array n r, h, h', hr => readLaw_array n (readLaw r h.2.2 h'.2.2 hr) (strip (.array n r.rd)) (see (.array n r))
      (fun _ => rfl) (fun _ => rfl)
  | .tuple rs, h, h', hr => readLaw_tuple (readTuple rs h.2.2 h'.2.2 hr)
  | .option r, h, h', hr => readLaw_option (readLaw r h h' hr)
  | .box r, h, h', hr => readLaw_box (readLaw r h h' hr)
  | .hashMap k r, h, h', hr => readLaw_hashMap (decLaw k h.1) (readLaw r h.2 h'.2 hr) (eq_strip k)
  | .list r, h, h', hr => readLaw_list (readLaw r h.2 h'.2 hr)
  | .map k k' r, h, h', hr => by
    have h0 := readLaw_map k' (readLaw r h.2 h'.2 hr.2)
    exact
      { wire_eq := h0.wire_eq
        dflt_eq := h0.dflt_eq
        init_strip := h0.init_strip
        enc_ne := h0.enc_ne
        lo_dflt := fun v rt ⟨m, hc⟩ =>
          h0.lo_dflt v rt ⟨m, fun e he => ⟨Nat.le_trans (hc.1 e he).1 hr.1, (hc.1 e he).2⟩, hc.2⟩
        empty_dflt := fun v rt ⟨m, hc⟩ =>
          h0.empty_dflt v rt ⟨m, fun e he => ⟨Nat.le_trans (hc.1 e he).1 hr.1, (hc.1 e he).2⟩, hc.2⟩
        roundWide := fun m rt v rest hc =>
          h0.roundWide m rt v rest ⟨fun e he => ⟨Nat.le_trans (hc.1 e he).1 hr.1, (hc.1 e he).2⟩, hc.2⟩ }
  | .vecList r, h, h', hr => (readLaw_list (readLaw r h h'.2 hr)).comap (fun v => (⟨Rt.dflt, v⟩ : ListV r.wr.El))
  | .listVec r, h, h', hr => (readLaw_vec (readLaw r h.2 h' hr)).comap (fun v : ListV r.wr.El => v.items)
  | .optionVec r, h, h', hr => by
    refine ((readLaw_vec (readLaw r h h' hr)).comap (fun v : Option r.wr.El => v.toList)).congr rfl rfl rfl rfl rfl ?_
    funext m v
    cases v <;> simp [Seen]
  | .boxed r, h, h', hr => (readLaw r h h' hr).boxed
  | .unboxed r, h, h', hr => (readLaw r h h' hr).emptyLo
  | .struct ds cached ds' cached' fs, h, h', hr => readLaw_struct ds' cached' (readFields fs ds ds' h.2 h'.2 hr.1 hr.2)
  | .enum ds cached ds' cached' fs vs, h, h', hr => by
    have hf := readFields fs ds ds' h.2.1 h'.2.1 hr.1 hr.2.1
    have h0 := readLaw_enum ds' (fun rt => Sum.inl ((fs.rd.dict ds').init rt))
      (variantsDec_cons 0#32 cached' h'.2.2.2.1 hf (readVariants vs ds ds' h.2.2.2.2 h'.2.2.1 h'.2.2.2.2 hr.2.2))
      (see' := fun v => (see (.enum ds cached ds' cached' fs vs) ⟨Rt.dflt, v⟩).val)
      (fun m v hc => by
        cases v with
        | inl x => rfl
        | inr x =>
          obtain ⟨y, hy⟩ := seeVariant_seen m vs x hc
          simp only [Sum.elim_inr, see, hy]; rfl)
      (fun rt => by simp [variantsCons])
      (fun rt rt' => by simp only [Sum.map_inl, hf.init_strip rt rt'])
      (by
        rintro (v | v) he
        · simp only [Sum.elim_inl, List.append_eq_nil_iff] at he
          exact leb_ne_nil _ he.1
        · exact encodeVariant_ne vs.wr v he)
    refine ReadLaw.congr (wire' := 2) (enc' := encode (.enum ds cached fs.wr vs.wr))
      (lo' := fun v => (encode (.enum ds cached fs.wr vs.wr) v).isEmpty) (strip' := strip (.enum ds' cached' fs.rd vs.rd))
      (see' := see (.enum ds cached ds' cached' fs vs))
      (carried' := fun m => Seen m (.enum ds cached ds' cached' fs vs)) h0 rfl ?_ ?_ ?_ ?_ ?_
    · funext v; rcases v with ⟨rt, x | x⟩ <;> rfl
    · funext v; rcases v with ⟨rt, x | x⟩ <;> rfl
    · funext v; rcases v with ⟨rt, x | x⟩ <;> rfl
    · funext v; rcases v with ⟨rt, x | x⟩ <;> rfl
    · funext _ v; rcases v with ⟨rt, x | x⟩ <;> rfl

theorem readTuple : (rs : RevTuple) → rs.wr.WF → rs.rd.WF → rs.Rules →
    TupleDec rs.rd.dict (encodeTuple rs.wr) (stripTuple rs.rd) (seeTuple rs) (fun m => SeenTuple m rs)
  | .nil, _, _, _ => tupleDec_nil
  | .cons r rs, h, h', hr => tupleDec_cons (readLaw r h.1 h'.1 hr.1) (readTuple rs h.2 h'.2 hr.2)

theorem readFields : (fs : RevFields) → (ds ds' : Bool) → fs.wr.WF ds → fs.rd.WF ds' → fs.tags.Nodup → fs.Rules →
    FieldsDec (fs.rd.dict ds') fs.rd.tags fs.extra (encodeFields fs.wr) (stripFields fs.rd) (seeFields fs)
      (fun m => SeenFields m fs)
  | .nil, _, _, _, _, _, _ => fieldsDec_nil
  | .keep tag attrs attrs' r fs, ds, ds', h, h', hn, hr =>
    have hn := List.nodup_cons.1 hn
    fieldsDec_cons ds' tag attrs' (tag_lt h.1) (fun hm => hn.1 (fs.rd_tags tag hm)) (fun hm => hn.1 (fs.extra_tags tag hm))
      (readLaw r h.2.2.1 h'.2.2.1 hr.1) (readFields fs ds ds' h.2.2.2 h'.2.2.2 hn.2 hr.2)
  | .add tag attrs t fs, ds, ds', h, h', hn, hr => by
    have hn := List.nodup_cons.1 hn
    have := fieldsDec_add (wt := wireTypeOf t) (encx := encode t) (lox := fun v => leftOut t v (encode t v))
      (carriedx := fun m v => Skipped m t v) tag (tag_lt h.1) (fun hm => hn.1 (fs.rd_tags tag hm))
      (fun m x rest hs hlo hl => skip_field m t x rest hs hlo hl) (readFields fs ds ds' h.2.2.2 h' hn.2 hr)
    rw [wireTypeOf_num] at this
    exact this
  | .drop tag attrs t fs, ds, ds', h, h', hn, hr =>
    have hn := List.nodup_cons.1 hn
    fieldsDec_drop ds' tag attrs (fun hm => hn.1 (fs.rd_tags tag hm)) (fun hm => hn.1 (fs.extra_tags tag hm))
      (decLaw t h'.2.2.1) (readFields fs ds ds' h h'.2.2.2 hn.2 hr)
  | .retype tag attrs attrs' t t' fs, ds, ds', h, h', hn, hr => by
    have hn := List.nodup_cons.1 hn
    have := fieldsDec_retype (wt := wireTypeOf t) (encx := encode t) (lox := fun v => leftOut t v (encode t v))
      (carriedx := fun m v => Skipped m t v) ds' tag attrs' (tag_lt h.1) (fun hm => hn.1 (fs.rd_tags tag hm))
      (fun hm => hn.1 (fs.extra_tags tag hm)) (wireTypeOf_ne h'.2.2.1 hr.1)
      (fun m x rest hs hlo hl => skip_field m t x rest hs hlo hl) (decLaw t' h'.2.2.1)
      (readFields fs ds ds' h.2.2.2 h'.2.2.2 hn.2 hr.2)
    rw [wireTypeOf_num] at this
    exact this

theorem readVariants : (vs : RevVariants) → (ds ds' : Bool) → vs.wr.WF ds → vs.rd.tags.Nodup → vs.rd.WF ds' → vs.Rules →
    VariantsDec (vs.rd.dict ds') vs.rd.tags (encodeVariant vs.wr) (stripVariant vs.rd) (seeVariant vs)
      (fun m => SeenVariant m vs)
  | .nil, _, _, _, _, _, _ => ⟨fun v => (nomatch v), fun _ _ v => (nomatch v), fun _ _ _ => rfl, fun _ v => (nomatch v)⟩
  | .keep tag cached cached' fs vs, ds, ds', h, hn, h', hr => by
    have hn := List.nodup_cons.1 hn
    have := variantsDec_cons tag cached' hn.1 (readFields fs ds ds' h.2.2.1 h'.2.2.1 hr.1 hr.2.1)
      (readVariants vs ds ds' h.2.2.2 hn.2 h'.2.2.2 hr.2.2)
    have e1 : encodeVariant (.cons tag cached fs.wr vs.wr) =
        Sum.elim (fun x => leb tag.toNat ++ encodeFields fs.wr x) (encodeVariant vs.wr) := by
      funext v; cases v <;> rfl
    have e2 : (fun m : Mode => SeenVariant m (.keep tag cached cached' fs vs)) =
        fun m => Sum.elim (SeenFields m fs) (SeenVariant m vs) := by
      funext _ v; cases v <;> rfl
    have e3 : stripVariant (.cons tag cached' fs.rd vs.rd) = Sum.map (stripFields fs.rd) (stripVariant vs.rd) := by
      funext v; cases v <;> rfl
    have e4 : seeVariant (.keep tag cached cached' fs vs) =
        Sum.elim (fun x => some (Sum.inl (seeFields fs x))) (fun x => (seeVariant vs x).map Sum.inr) := by
      funext v; cases v <;> rfl
    rw [e4, e3, e2]
    change VariantsDec _ _ (encodeVariant (.cons tag cached fs.wr vs.wr)) _ _ _
    rw [e1]
    exact this
  | .add tag cached fs vs, ds, ds', h, hn, h', hr => by
    have := variantsDec_add (fun x => leb tag.toNat ++ encodeFields fs x) (readVariants vs ds ds' h.2.2.2 hn h' hr)
    have e1 : encodeVariant (.cons tag cached fs vs.wr) =
        Sum.elim (fun x => leb tag.toNat ++ encodeFields fs x) (encodeVariant vs.wr) := by
      funext v; cases v <;> rfl
    have e2 : (fun m : Mode => SeenVariant m (.add tag cached fs vs)) =
        fun m => Sum.elim (fun _ => False) (SeenVariant m vs) := by
      funext _ v; cases v <;> rfl
    have e4 : seeVariant (.add tag cached fs vs) = Sum.elim (fun _ => none) (seeVariant vs) := by
      funext v; cases v <;> rfl
    rw [e4, e2]
    change VariantsDec _ _ (encodeVariant (.cons tag cached fs vs.wr)) _ _ _
    rw [e1]
    exact this
  | .drop tag cached fs vs, ds, ds', h, hn, h', hr => by
    have hn := List.nodup_cons.1 hn
    have := variantsDec_drop (fs := fs.dict ds') (stripFields fs) tag cached hn.1
      (readVariants vs ds ds' h hn.2 h'.2.2.2 hr)
    have e3 : stripVariant (.cons tag cached fs vs.rd) = Sum.map (stripFields fs) (stripVariant vs.rd) := by
      funext v; cases v <;> rfl
    change VariantsDec _ _ _ (stripVariant (.cons tag cached fs vs.rd)) _ _
    rw [e3]
    exact this
end

end Steit
