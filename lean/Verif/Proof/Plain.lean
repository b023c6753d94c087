import Verif.Spec.Plain
import Verif.Props.Encode
import Verif.Props.EncodeTotal
import Verif.Props.RoundTrip
import Verif.Props.Zero
import Verif.Proof.RoundTripMain

/-!
# Plain types: the conditions of the round trip hold for every value
-/

namespace VJ
variable [Ext] {K : Kinds} {Γ : Env} {S : Nat → Prop}

/-- no types declared elsewhere -/
def NoForeignVal : Nat → GoVal → Prop := fun _ _ => False
def NoForeignDoc : Nat → Option GoVal → JV → Prop := fun _ _ _ => False

omit [Ext] in
theorem Solid.not_nil {X : Nat → GoVal → Prop} {t : TExpr} (h : Solid K Γ t) : ∀ {v : GoVal}, HasType Γ X t v → v ≠ .nil := by
  induction h with
  | prim _ => intro v hv; have := hv.of_prim; cases this <;> simp
  | float _ => intro v hv; have := hv.of_prim; cases this <;> simp
  | time _ => intro v hv; generalize ht : TExpr.time = t at hv; cases hv with
    | time => simp
    | «alias» he => subst ht; cases he
    | struct he => subst ht; cases he
    | foreign he => subst ht; cases he
    | _ => cases ht
  | uuid => intro v hv; generalize ht : TExpr.uuid = t at hv; cases hv with
    | uuid _ => simp
    | «alias» he => subst ht; cases he
    | struct he => subst ht; cases he
    | foreign he => subst ht; cases he
    | _ => cases ht
  | struct hd => intro v hv; obtain ⟨gs, rfl, _⟩ := hv.of_struct (.named _) hd; simp
  | name hd _ ih => intro v hv; exact ih (hv.of_alias (.named _) hd)

omit [Ext] in
theorem Solid.simple_of {t : TExpr} (h : Simple K Γ t) : Solid K Γ t ∨ ∃ u, t = .star u ∧ Solid K Γ u ∧ u ≠ .uuid ∧
    ∀ n strict, u = .named n → Γ.decl n ≠ some (.struct strict []) := by
  cases h with
  | solid h => exact .inl h
  | ptr h hu he => exact .inr ⟨_, rfl, h, hu, he⟩

omit [Ext] in
theorem PlainType.of_slice {t : TExpr} (h : PlainType K Γ (.slice t)) : Simple K Γ t := by
  cases h with
  | simple h => cases h with | solid h => cases h
  | slice h => exact h

omit [Ext] in
theorem PlainType.of_map {t : TExpr} (h : PlainType K Γ (.map t)) : Simple K Γ t := by
  cases h with
  | simple h => cases h with | solid h => cases h
  | map h => exact h

omit [Ext] in
theorem PlainType.of_array {t : TExpr} {n : Nat} (h : PlainType K Γ (.array n t)) : Simple K Γ t ∧ t ≠ .prim .byte := by
  cases h with
  | simple h => cases h with | solid h => cases h
  | array _ h hb => exact ⟨h, hb⟩

omit [Ext] in
theorem PlainType.of_star {t : TExpr} (h : PlainType K Γ (.star t)) : Solid K Γ t ∧ t ≠ .uuid ∧ ∀ n strict, t = .named n → Γ.decl n ≠ some (.struct strict []) := by
  cases h with
  | simple h => cases h with
    | solid h => cases h
    | ptr h hu he => exact ⟨h, hu, he⟩

/-- what is met inside a value of the package: plain types, and names -/
def PlainPart (K : Kinds) (Γ : Env) (t : TExpr) : Prop := PlainType K Γ t ∨ ∃ n, t = .named n

theorem PlainPackage.egood {F : Nat → Option GoVal → JV → Prop} (hE : EncPackage Γ F S) {n : Nat} (hn : S n) {V v : GoVal} {t : TExpr}
    (h : Part Γ (.named n) V t v) : EGood Γ S t :=
  part_good hE ⟨⟨by simp [TExpr.names, hn], rfl⟩, by simp [TExpr.sels]⟩ h

theorem PlainPackageOf.part {F : Nat → Option GoVal → JV → Prop} (hE : EncPackage Γ F S) (hP : PlainPackageOf K Γ S) {n : Nat} (hn : S n)
    {V v : GoVal} {t : TExpr} (h : Part Γ (.named n) V t v) : PlainPart K Γ t := by
  induction h with
  | self => exact .inr ⟨n, rfl⟩
  | ptr _ ih => rcases ih with ih | ⟨_, h⟩
                · exact .inl (.simple (.solid ih.of_star.1))
                · cases h
  | slice _ _ ih => rcases ih with ih | ⟨_, h⟩
                    · exact .inl (.simple ih.of_slice)
                    · cases h
  | array _ _ ih => rcases ih with ih | ⟨_, h⟩
                    · exact .inl (.simple ih.of_array.1)
                    · cases h
  | map _ _ ih => rcases ih with ih | ⟨_, h⟩
                  · exact .inl (.simple ih.of_map)
                  · cases h
  | «alias» hp he hd ih => exact .inl (hP.names _ _ ((PlainPackage.egood hE hn hp).name he) hd).1
  | field hp he hd hf hg ih =>
    have := hP.fields _ _ _ _ ((PlainPackage.egood hE hn hp).name he) hd (List.mem_of_getElem? hf)
    rcases this.typ with h | ⟨_, m, u, h, _⟩
    · exact .inl h
    · exact .inr ⟨m, h⟩

omit [Ext] in
theorem part_typed {X : Nat → GoVal → Prop} {T t : TExpr} {V v : GoVal} (hV : HasType Γ X T V) (h : Part Γ T V t v) : HasType Γ X t v := by
  induction h with
  | self => exact hV
  | ptr _ ih => rcases ih.star_cases with h | ⟨w, h, hw⟩
                · cases h
                · cases h; exact hw
  | @slice t v es sp _ hm ih =>
    generalize hT : TExpr.slice t = T' at ih
    generalize hV' : GoVal.slice es sp = V' at ih
    cases ih with
    | slice _ h _ => cases hT; cases hV'; exact h _ hm
    | «alias» he => subst hT; cases he
    | struct he => subst hT; cases he
    | foreign he => subst hT; cases he
    | _ => first | (cases hT; done) | (cases hV'; done)
  | @array t n v es _ hm ih =>
    generalize hT : TExpr.array n t = T' at ih
    generalize hV' : GoVal.arr es = V' at ih
    cases ih with
    | array _ _ h => cases hT; cases hV'; exact h _ hm
    | «alias» he => subst hT; cases he
    | struct he => subst hT; cases he
    | foreign he => subst hT; cases he
    | _ => first | (cases hT; done) | (cases hV'; done)
  | map _ hm ih => rcases ih.map_cases with h | ⟨kvs, h, _, hw⟩
                   · cases h
                   · cases h; exact hw _ hm
  | «alias» _ he hd ih => exact ih.of_alias he hd
  | field _ he hd hf hg ih =>
    obtain ⟨gs, h, _, hw⟩ := ih.of_struct he hd
    cases h
    exact hw _ _ _ hf hg


/-! ### zero values -/

omit [Ext] in
theorem zeroScalar_zero {p : Prim} {v : GoVal} (h : PrimTyped p v) (hz : ZeroScalar v) (hf : ∀ f, v = .float f → f.isZero = true → f = 0) :
    v = p.zero := by
  cases h with
  | int hw _ => cases hz; cases p <;> first | rfl | cases hw
  | float64 => cases hz with | float h => rw [hf _ rfl h]; rfl
  | float32 => cases hz with | float h => rw [hf _ rfl h]; rfl
  | bool => cases hz; rfl
  | string => cases hz; rfl

omit [Ext] in
theorem Solid.prim_of (hK : K.floats = false) {p : Prim} (h : Solid K Γ (.prim p)) : p ≠ .float32 ∧ p ≠ .float64 := by
  cases h with
  | prim h => exact h
  | float h => rw [hK] at h; cases h

omit [Ext] in
theorem PlainType.prim_of (hK : K.floats = false) {p : Prim} (h : PlainType K Γ (.prim p)) : p ≠ .float32 ∧ p ≠ .float64 := by
  cases h with
  | simple h => cases h with
    | solid h => exact h.prim_of hK

omit [Ext] in
theorem PlainType.not_sel {n : Nat} (h : PlainType K Γ (.sel n)) : False := by
  cases h with
  | simple h => cases h with
    | solid h => cases h

omit [Ext] in
theorem PlainType.not_time (hK : K.times = false) (h : PlainType K Γ .time) : False := by
  cases h with
  | simple h => cases h with
    | solid h => cases h with
      | time h => rw [hK] at h; cases h

omit [Ext] in
theorem PlainType.not_fixed {n : Nat} (h : PlainType K Γ (.array n (.prim .byte))) : False := h.of_array.2 rfl

section
variable {F : Nat → Option GoVal → JV → Prop} {X : Nat → GoVal → Prop} (hE : EncPackage Γ F S) (hP : PlainPackageOf K Γ S) {n : Nat} (hn : S n) {V : GoVal}
  (hV : HasType Γ X (.named n) V)
include hE hP hn

theorem plain_fieldIn {fd : FieldDecl} {g : GoVal} (h : FieldIn Γ (.named n) V fd g) : PlainField K Γ fd ∧ EGood Γ S fd.typ := by
  obtain ⟨e, m, strict, fields, gs, i, hp, he, hd, hf, hg⟩ := h
  have hm := (PlainPackage.egood hE hn hp).name he
  exact ⟨hP.fields _ _ _ _ hm hd (List.mem_of_getElem? hf), hE.field hm hd (List.mem_of_getElem? hf)⟩

/-- the type of a field, or what its name stands for, is plain -/
theorem plain_is {fd : FieldDecl} {g : GoVal} (h : FieldIn Γ (.named n) V fd g) {u : TExpr} (hu : Is Γ fd.typ u) (hnn : ∀ m, u ≠ .named m) : PlainType K Γ u := by
  obtain ⟨h1, h2⟩ := plain_fieldIn hE hP hn h
  generalize ht : fd.typ = t at hu
  cases hu with
  | self =>
    rcases h1.typ with h | ⟨_, m, _, h, _⟩
    · rw [ht] at h; exact h
    · exact absurd (ht.symm.trans h) (hnn m)
  | @named m u hd =>
    refine (hP.names m u (h2.name (n := m) (by rw [ht]; exact .named m)) hd).1

include hV

theorem plain_element {t : TExpr} {x : GoVal} (h : ElementIn Γ (.named n) V t x) : Simple K Γ t ∧ HasType Γ X t x := by
  have ht := part_typed hV h.part
  refine ⟨?_, ht⟩
  cases h with
  | slice h _ => rcases hP.part hE hn h with h | ⟨_, h⟩
                 · exact h.of_slice
                 · cases h
  | array h _ => rcases hP.part hE hn h with h | ⟨_, h⟩
                 · exact h.of_array.1
                 · cases h
  | map h _ => rcases hP.part hE hn h with h | ⟨_, h⟩
               · exact h.of_map
               · cases h

variable (hK : KeptParts Γ (.named n) V)
include hK

theorem plain_omits {fd : FieldDecl} {g : GoVal} (h : FieldIn Γ (.named n) V fd g) (ho : Omitted Γ fd g) : ZeroOf Γ fd.typ g := by
  obtain ⟨hf, hg⟩ := plain_fieldIn hE hP hn h
  have hty := part_typed hV h.part
  obtain ⟨k, hk, hv, ho⟩ := ho
  replace ho : fd.tags.omitempty = true := by
    rcases ho with ho | ⟨_, ho⟩
    · exact ho
    · exact absurd ho hf.named.1
  cases hv with
  | scalar hz =>
    generalize ht : fd.typ = t at *
    cases hk with
    | scalar hp =>
      have hzero := zeroScalar_zero (hty.of_isPrim hp) hz fun f hf h0 => (hK.floats _ f (hf ▸ h.part.isPrim (ht ▸ hp))).2.2.1 h0
      rw [hzero]
      exact (zeroOf_isPrim hp).2 ⟨0, rfl⟩
  | ptr =>
    generalize ht : fd.typ = t at *
    cases hk with
    | ptr _ => exact ⟨0, rfl⟩
    | namedPtr hd => exact (zeroOf_is (.named hd)).2 ⟨0, rfl⟩
  | ptr2 =>
    generalize ht : fd.typ = t at *
    cases hk with
    | ptr2 _ => exact ⟨0, rfl⟩
  | ptr2' =>
    have hpl := fun u hu hnn => plain_is hE hP hn h (u := u) hu hnn
    generalize ht : fd.typ = t at *
    cases hk with
    | ptr2 hi =>
      have h1 := (hpl _ (.self _) (by simp)).of_star.1
      cases hi with
      | self => cases h1
      | named hd => cases h1 with
        | struct hd' => rw [hd] at hd'; cases hd'
        | name hd' h' => rw [hd] at hd'; cases hd'; cases h'
  | time h0 =>
    generalize ht : fd.typ = t at *
    cases hk with
    | time => rw [((hK.times _ (ht ▸ h.part)).2.2.2.2 h0).1]; exact ⟨0, rfl⟩
  | timePtr =>
    generalize ht : fd.typ = t at *
    cases hk with
    | timePtr hi => exact (zeroOf_is hi).2 ⟨0, rfl⟩
  | @method m _ _ =>
    have hpl := fun u hu hnn => plain_is hE hP hn h (u := u) hu hnn
    have hst := hf.structs ho
    generalize ht : fd.typ = t at *
    cases hk with
    | method hb => cases hb with
      | struct hd => exact absurd hd (hst _ _ _ rfl)
      | sel hd => exact (hpl _ (.self _) (by simp)).not_sel.elim
      | named hd => exact (hpl _ (.named hd) (by simp)).not_sel.elim
  | methodPtr =>
    generalize ht : fd.typ = t at *
    cases hk with
    | methodPtr _ => exact ⟨0, rfl⟩
  | map =>
    generalize ht : fd.typ = t at *
    cases hk with
    | map hi => exact (zeroOf_is hi).2 ⟨0, rfl⟩
  | list =>
    generalize ht : fd.typ = t at *
    cases hk with
    | slice hi _ => exact (zeroOf_is hi).2 ⟨0, rfl⟩
    | array hi hb => obtain ⟨es, h, _⟩ := (hty.of_is hi).array_cases hb; cases h
  | bytes =>
    generalize ht : fd.typ = t at *
    cases hk with
    | bytes hi => exact (zeroOf_is hi).2 ⟨0, rfl⟩
  | fixedBytes _ =>
    have hpl := fun u hu hnn => plain_is hE hP hn h (u := u) hu hnn
    generalize ht : fd.typ = t at *
    cases hk with
    | fixedBytes hi => exact (hpl _ hi (by simp)).not_fixed.elim

theorem plain_lossless_of : Lossless Γ (.named n) V where
  floats p f h := (hK.floats p f h).2
  times tm h := ⟨(hK.times tm h).1, (hK.times tm h).2.2.1⟩
  timeFields fd tm h ht := by
    have hp : Part Γ (.named n) V .time (.time tm) ∧ fd.tags.layout = [] := by
      rcases h with h | h
      · refine ⟨?_, ((plain_fieldIn hE hP hn h).1.times ht).1⟩
        have hp := h.part
        have hty := part_typed hV hp
        generalize fd.typ = u at *
        cases u with
        | time => exact hp
        | star u => rcases hty.star_cases with h | ⟨w, h, _⟩ <;> cases h
        | _ => cases ht
      · refine ⟨?_, ((plain_fieldIn hE hP hn h).1.times ht).1⟩
        have hp := h.part
        have hty := part_typed hV hp
        generalize fd.typ = u at *
        cases u with
        | time => cases hty with
          | «alias» he => cases he
          | foreign he => cases he
        | star u => cases ht; exact hp.ptr
        | _ => cases ht
    rw [hp.2]
    exact (hK.times tm hp.1).2.2.2
  omits fd g h ho := plain_omits hE hP hn hV hK h ho
  nilTimes fd h ht := ((plain_fieldIn hE hP hn h).1.times (by rw [ht]; rfl)).2 ht
  nilFields fd h := by
    have hty := part_typed hV h.part
    rcases (plain_fieldIn hE hP hn h).1.typ with h1 | ⟨h1, _⟩
    · left
      generalize fd.typ = t at *
      cases h1 with
      | simple h1 => cases h1 with
        | solid h1 => exact absurd rfl (h1.not_nil hty)
        | ptr => rfl
      | slice => rfl
      | map => rfl
      | array => rfl
    · exact .inr (.inl h1)
  nilElements t h := by
    obtain ⟨h1, h2⟩ := plain_element hE hP hn hV h
    cases h1 with
    | solid h1 => exact absurd rfl (h1.not_nil h2)
    | ptr => exact .inl ⟨_, rfl⟩
  nilTop m u h hv hd := by
    cases h
    subst hv
    obtain ⟨h1, h2⟩ := hP.names _ _ hn hd
    have hty := hV.of_alias (.named _) hd
    cases h1 with
    | simple h1 => cases h1 with
      | solid h1 => exact absurd rfl (h1.not_nil hty)
      | ptr => exact absurd rfl (h2 _)
    | slice => exact .inl ⟨_, rfl⟩
    | map => exact .inr ⟨_, rfl⟩
    | array len _ hb => obtain ⟨es, h, _⟩ := hty.array_cases hb; cases h
  nilEmpty y m strict h hy := by
    obtain ⟨h1, _⟩ := plain_element hE hP hn hV h
    cases h1 with
    | solid h1 => cases h1
    | ptr h1 _ he => cases hy with
      | named => exact he _ _ rfl
      | sel => cases h1
  nilPtrs t h := by
    rcases hP.part hE hn h with h' | ⟨_, h'⟩
    · exact h'.of_star.1.not_nil (part_typed hV h.ptr) rfl
    · cases h'

theorem plain_fine_of : Fine Γ F (.named n) V where
  floats p f h := (hK.floats p f h.toPart).1
  commas e m strict fields gs h he hd i j fd fd' g g' hij hfi hgi hfj hgj hno _ := by
    replace h := h.toPart
    have hm := (PlainPackage.egood hE hn h).name he
    by_cases hst : (∃ t, fd.typ = .star t) ∧ fd.tags.omitempty = false
    · obtain ⟨l, fl, hl, hfl, hns, hom⟩ := hP.commas m strict fields i fd hm hd hfi hst.1 hst.2
      have hpf := hP.fields _ _ _ _ hm hd (List.mem_of_getElem? hfl)
      have hlen : l < gs.length := by
        have := (List.getElem?_eq_some_iff.1 hgi).1
        omega
      have hgl : gs[l]? = some gs[l] := List.getElem?_eq_getElem hlen
      have hin : FieldIn Γ (.named n) V fl gs[l] := ⟨e, m, strict, fields, gs, l, h, he, hd, hfl, hgl⟩
      refine ⟨l, fl, gs[l], by omega, hfl, hgl, ?_, ?_⟩
      · rintro ⟨k, _, _, ho | ⟨_, ho⟩⟩
        · rw [hom] at ho; cases ho
        · exact hpf.named.1 ho
      · rintro ⟨_, k, hk, _, hk'⟩
        have hpl := fun u hu hnn => plain_is hE hP hn hin (u := u) hu hnn
        have hg' := (plain_fieldIn hE hP hn hin).2
        generalize fl.typ = t at *
        rcases hk' with rfl | rfl | ⟨_, rfl⟩
        · cases hk with
          | ptr _ => exact hns _ rfl
          | namedPtr hd' => exact (hP.names _ _ (hg'.name (.named _)) hd').2 _ rfl
        · cases hk with
          | ptr2 _ => exact hns _ rfl
        · cases hk with
          | methodPtr _ => exact hns _ rfl
    · refine ⟨i, fd, g, hij, hfi, hgi, hno, ?_⟩
      rintro ⟨ho, k, hk, _, hk'⟩
      refine hst ⟨?_, ho⟩
      have hg' : EGood Γ S fd.typ := hE.field hm hd (List.mem_of_getElem? hfi)
      generalize fd.typ = t at *
      rcases hk' with rfl | rfl | ⟨_, rfl⟩
      · cases hk with
        | ptr _ => exact ⟨_, rfl⟩
        | namedPtr hd' => exact absurd rfl ((hP.names _ _ (hg'.name (.named _)) hd').2 _)
      · cases hk with
        | ptr2 _ => exact ⟨_, rfl⟩
      · cases hk with
        | methodPtr _ => exact ⟨_, rfl⟩
  splices e m strict fields gs h he hd i l fd g jv hfi hgi hn' := by
    have hm := (PlainPackage.egood hE hn h.toPart).name he
    exact absurd hn' (hP.fields _ _ _ _ hm hd (List.mem_of_getElem? hfi)).named.1

omit hK in
theorem plain_noNilUUID_of : NoNilUUID Γ (.named n) V := by
  intro h
  rcases hP.part hE hn h.toPart with h | ⟨_, h⟩
  · exact h.of_star.2.1 rfl
  · cases h

theorem plain_timesOK_of : TimesOK Γ (.named n) V := by
  intro e m tm h he hd
  exact (hK.times tm (h.toPart.alias he hd)).2.1

end

/-! ### without floats and times -/

section
variable {F : Nat → Option GoVal → JV → Prop} {X : Nat → GoVal → Prop} (hE : EncPackage Γ F S) (hP : PlainPackage Γ S) {n : Nat} (hn : S n) {V : GoVal}
  (hV : HasType Γ X (.named n) V)
include hE hP hn hV

theorem plain_kept : KeptParts Γ (.named n) V where
  floats p f h := by
    exfalso
    have hp : p ≠ .float32 ∧ p ≠ .float64 := by
      rcases hP.part hE hn h with h | ⟨_, h⟩
      · exact h.prim_of rfl
      · cases h
    cases (part_typed hV h).of_prim with
    | float64 => exact absurd rfl hp.2
    | float32 => exact absurd rfl hp.1
  times t h := by
    rcases hP.part hE hn h with h | ⟨_, h⟩
    · exact (h.not_time rfl).elim
    · cases h

theorem plain_lossless : Lossless Γ (.named n) V := plain_lossless_of hE hP hn hV (plain_kept hE hP hn hV)
theorem plain_fine : Fine Γ F (.named n) V := plain_fine_of hE hP hn hV (plain_kept hE hP hn hV)
theorem plain_noNilUUID : NoNilUUID Γ (.named n) V := plain_noNilUUID_of hE hP hn hV
theorem plain_timesOK : TimesOK Γ (.named n) V := plain_timesOK_of hE hP hn hV (plain_kept hE hP hn hV)

end

/-! ### packages -/

omit [Ext] in
theorem solid_fixed {t : TExpr} (h : Solid K Γ t) : t.fixedBytes = false := by cases h <;> rfl

omit [Ext] in
theorem simple_fixed {t : TExpr} (h : Simple K Γ t) : t.fixedBytes = false := by
  cases h with
  | solid h => exact solid_fixed h
  | ptr h => rw [TExpr.fixedBytes]; exact solid_fixed h

omit [Ext] in
theorem plain_fixed {t : TExpr} (h : PlainType K Γ t) : t.fixedBytes = false := by
  cases h with
  | simple h => exact simple_fixed h
  | slice h => rw [TExpr.fixedBytes]; exact simple_fixed h
  | map h => rw [TExpr.fixedBytes]; exact simple_fixed h
  | @array t _ h hb =>
    simp only [TExpr.fixedBytes, simple_fixed h, Bool.or_false]
    cases t with
    | prim p => cases p <;> first | rfl | exact absurd rfl hb
    | _ => rfl

section
variable {F : Nat → Option GoVal → JV → Prop} {X : Nat → GoVal → Prop} (hE : EncPackage Γ F S) (hP : PlainPackageOf K Γ S)
include hE hP

theorem plain_toPackage : Package Γ X S where
  closed := hP.closed
  decoders n hn _ := hP.decoders n hn
  noAnon := hE.noAnon
  acyclic := hP.acyclic
  foreignZero n hn hd := absurd hd (hP.declared n hn)
  foreignConv n v hn hd := absurd hd (hP.declared n hn)
  foreignFill n v s hn hd := absurd hd (hP.declared n hn)

theorem plain_toEncoderSet : EncoderSet Γ X S where
  toTypeSet := hE.toTypeSet
  encoders n hn _ := hP.encoders n hn
  zeros := hP.zeros
  foreign n v w hn hd := absurd hd (hP.declared n hn)
  foreignNil n w hn hd := absurd hd (hP.declared n hn)
  foreignZero n v hn hd := absurd hd (hP.declared n hn)

theorem plain_toForeignFine : ForeignFine Γ X S where
  tame := hE.tame
  val n v w r hn hd := absurd hd (hP.declared n hn)
  nil n w r hn hd := absurd hd (hP.declared n hn)
  embeds n strict fields fd m hn hd hf hj := absurd hj (hP.fields _ _ _ _ hn hd hf).named.1

theorem plain_toNoFixedBytes : NoFixedBytes Γ S := by
  intro n d t hn hd ht
  cases d with
  | struct strict fields =>
    obtain ⟨fd, hf, rfl⟩ := List.mem_map.1 ht
    rcases (hP.fields _ _ _ _ hn hd hf).typ with h | ⟨_, m, u, h, _⟩
    · exact plain_fixed h
    · rw [h]; rfl
  | «alias» u =>
    cases List.mem_singleton.1 ht
    exact plain_fixed (hP.names _ _ hn hd).1

theorem plain_fieldName {n : Nat} {strict : Bool} {fields : List FieldDecl} {fd : FieldDecl} {key : Str} (hn : S n)
    (hd : Γ.decl n = some (.struct strict fields)) (hf : fd ∈ fields) (h : FieldName Γ fd key) : key = fd.tags.jsonName := by
  rcases h with ⟨_, h⟩ | ⟨h, _⟩
  · exact h
  · exact absurd h (hP.fields _ _ _ _ hn hd hf).named.1

theorem plain_toTripPackage (hz : Ext.parseFloat (str "0") = some 0) : TripPackage Γ X F S where
  named n strict fields fd hn hd hf := ⟨(hP.fields _ _ _ _ hn hd hf).named.2, fun h => absurd h (hP.fields _ _ _ _ hn hd hf).named.1⟩
  distinct n strict fields i j fd fd' key hn hd hi hj hk hk' := by
    have h1 := plain_fieldName hE hP hn hd (List.mem_of_getElem? hi) hk
    have h2 := plain_fieldName hE hP hn hd (List.mem_of_getElem? hj) hk'
    have hnd := hP.distinct n strict fields hn hd
    have e1 : (fields.map fun fd => fd.tags.jsonName)[i]? = some key := by rw [List.getElem?_map, hi, h1]; rfl
    have e2 : (fields.map fun fd => fd.tags.jsonName)[j]? = some key := by rw [List.getElem?_map, hj, h2]; rfl
    exact (List.getElem?_inj (List.getElem?_eq_some_iff.1 e1).1 hnd).1 (e1.trans e2.symm)
  strict n fields fd hn hd hf := (hP.fields _ _ _ _ hn hd hf).named.1
  always n strict fields fd hn hd hf h := by
    obtain ⟨h1, h2⟩ := (hP.fields _ _ _ _ hn hd hf).always h
    refine ⟨h1, h2, ?_⟩
    rintro ⟨n', s', fs', fd', hn', hd', hf', hj, _⟩
    exact (hP.fields _ _ _ _ hn' hd' hf').named.1 hj
  zeroText := hz
  foreign n v jv hn hd := absurd hd (hP.declared n hn)
  foreignConv n v hn hd := absurd hd (hP.declared n hn)
  foreignZero n z hn hd := absurd hd (hP.declared n hn)
  foreignNil n jv hn hd := absurd hd (hP.declared n hn)
  foreignSome n v jv hn hd := absurd hd (hP.declared n hn)

end

end VJ
