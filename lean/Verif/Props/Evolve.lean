import Verif.Proof.Evolve
import Verif.Props.StructDecode
import Verif.Props.Text
import Verif.Props.RoundTripSamples

/-!
# C47, C48: two versions of a type, strict and lenient types
-/

namespace VJ
set_option linter.unusedSectionVars false

section
variable [Ext] {Γ : Env}

/-! ## C47 -/

/-- **C47, old reader.**  Whatever document the newer version reads, the older version — if it is
lenient — reads as well, and the common fields end up the same. -/
theorem C47_old_reader {n m : Nat} {strict : Bool} {old new : List FieldDecl} {pos : Nat → Nat}
    (hn : Γ.decl n = some (.struct false old)) (hm : Γ.decl m = some (.struct strict new)) (hk : KeepsFields old new pos)
    {doc : JV} {gs hs hs' : List GoVal} (hlen : gs.length = old.length) (hag : AgreeOnFields old pos gs hs)
    (h : Fills Γ m doc (.struct hs) none (.struct hs')) :
    ∃ gs', Fills Γ n doc (.struct gs) none (.struct gs') ∧ AgreeOnFields old pos gs' hs' := by
  obtain ⟨hacc, hl, hl'⟩ := fills_lengths hm h
  have hpos : ∀ i, i < old.length → pos i < new.length := fun i hi =>
    (List.getElem?_eq_some_iff.1 (hk i _ (List.getElem?_eq_getElem hi))).1
  obtain ⟨gs', hgl, hgs⟩ := exists_fields old.length (fun i => hs'[pos i]?) fun i hi =>
    ⟨hs'[pos i]'(by have := hpos i hi; omega), List.getElem?_eq_getElem _⟩
  refine ⟨gs', fills_of_steps hn ?_ hlen hgl ?_, hgs⟩
  · obtain ⟨kvs, rfl, h1, _⟩ := hacc
    refine ⟨kvs, rfl, fun key hkey => h1 key ?_, by simp⟩
    simp only [jsonNames, List.mem_map] at hkey ⊢
    obtain ⟨fd, hfd, rfl⟩ := hkey
    obtain ⟨i, hi, rfl⟩ := List.mem_iff_getElem.1 hfd
    exact ⟨_, List.mem_of_getElem? (hk i _ (List.getElem?_eq_getElem hi)), rfl⟩
  · intro i fd g g' hi hg hg'
    obtain ⟨_, _, k, f, a, a', e1, e2, h1, h2, h3, h4, _⟩ := fills_field hm h (hk i fd hi)
    cases e1; cases e2
    have hi' := (List.getElem?_eq_some_iff.1 hi).1
    rw [hag i hi', h1] at hg; cases hg
    rw [hgs i hi', h2] at hg'; cases hg'
    exact ⟨k, f, h3, h4⟩

/-- **C47, new reader.**  Whatever document the older version reads, the newer version reads as
well if it has nothing for the added fields and they may be left out; the common fields end up
the same. -/
theorem C47_new_reader {n m : Nat} {strict strict' : Bool} {old new : List FieldDecl} {pos : Nat → Nat}
    (hn : Γ.decl n = some (.struct strict old)) (hm : Γ.decl m = some (.struct strict' new)) (hdec : HasDecoder Γ m)
    (hk : KeepsFields old new pos) (hst : strict' = true → strict = true)
    {doc : JV} (hadd : ∀ j fd, new[j]? = some fd → Added old pos j → Optional fd doc)
    {gs gs' hs : List GoVal} (hlen : hs.length = new.length) (hag : AgreeOnFields old pos gs hs)
    (h : Fills Γ n doc (.struct gs) none (.struct gs')) :
    ∃ hs', Fills Γ m doc (.struct hs) none (.struct hs') ∧ AgreeOnFields old pos gs' hs' := by
  obtain ⟨hacc, hl, hl'⟩ := fills_lengths hn h
  obtain ⟨d, kd, ir, hd, hir⟩ := hdec
  rw [hm] at hd; cases hd
  simp only [genFill] at hir
  obtain ⟨fs, hgen, _⟩ := Out.bind_eq_ok.1 hir
  -- the statements of each field of the newer version end without error
  have hstep : ∀ j, j < new.length → ∃ g', ∀ fd g, new[j]? = some fd → hs[j]? = some g →
      (∃ K f, genFieldFill Γ K fd = .ok f ∧ stepField (Γ.methods K) doc f g = .ok (none, g')) ∧
      ∀ i, i < old.length → pos i = j → gs'[i]? = some g' := by
    intro j hj
    obtain ⟨f, hf, hgf⟩ := genFields_get hgen (List.getElem?_eq_getElem hj)
    by_cases hc : Added old pos j
    · obtain ⟨g', hg'⟩ := step_optional hgf (hadd j _ (List.getElem?_eq_getElem hj) hc) (hs[j]'(by omega))
      refine ⟨g', fun fd g h1 h2 => ⟨⟨kd, f, ?_, ?_⟩, fun i hi hp => absurd hp (hc i hi)⟩⟩
      · rw [List.getElem?_eq_getElem hj] at h1; cases h1; exact hgf
      · rw [List.getElem?_eq_getElem (by omega)] at h2; cases h2; exact hg'
    · simp only [Added, not_forall, Classical.not_not] at hc
      obtain ⟨i, hi, hp⟩ := hc
      obtain ⟨_, _, k, f', a, a', e1, e2, h1, h2, h3, h4, _⟩ := fills_field hn h (List.getElem?_eq_getElem hi)
      cases e1; cases e2
      have hold := hk i _ (List.getElem?_eq_getElem hi)
      rw [hp] at hold
      refine ⟨a', fun fd g h5 h6 => ⟨⟨k, f', ?_, ?_⟩, ?_⟩⟩
      · rw [hold] at h5; cases h5; exact h3
      · have := hag i hi
        rw [h1, hp, h6] at this; cases this; exact h4
      · intro i' hi' hp'
        obtain ⟨_, _, k', f'', b, b', e1, e2, h1', h2', h3', h4', _⟩ := fills_field hn h (List.getElem?_eq_getElem hi')
        cases e1; cases e2
        have hold' := hk i' _ (List.getElem?_eq_getElem hi')
        rw [hp', hold] at hold'
        have hfd := Option.some.inj hold'
        rw [← hfd] at h3'
        obtain rfl := genFieldFill_unique h3 h3'
        have hga := hag i hi
        have hgb := hag i' hi'
        rw [h1, hp] at hga
        rw [h1', hp', ← hga] at hgb
        cases hgb
        have x := stepField_lift (Nat.le_max_left k k') h4
        have y := stepField_lift (Nat.le_max_right k k') h4'
        rw [x] at y
        simp only [Out.ok.injEq, Prod.mk.injEq, true_and] at y
        rw [h2', y]
  have hex : ∀ j, j < new.length → ∃ g', (∀ fd g, new[j]? = some fd → hs[j]? = some g →
      (∃ K f, genFieldFill Γ K fd = .ok f ∧ stepField (Γ.methods K) doc f g = .ok (none, g')) ∧
      ∀ i, i < old.length → pos i = j → gs'[i]? = some g') := hstep
  let R : Nat → Option GoVal := fun j => if hj : j < new.length then some (Classical.choose (hex j hj)) else none
  obtain ⟨hs', hsl, hhs⟩ := exists_fields new.length R fun j hj => ⟨_, dif_pos hj⟩
  refine ⟨hs', fills_of_steps hm ?_ hlen hsl ?_, ?_⟩
  · obtain ⟨kvs, rfl, h1, h2⟩ := hacc
    refine ⟨kvs, rfl, ?_, ?_⟩
    · intro key hkey
      simp only [jsonNames, List.mem_map] at hkey
      obtain ⟨fd, hfd, rfl⟩ := hkey
      obtain ⟨j, hj, rfl⟩ := List.mem_iff_getElem.1 hfd
      by_cases hc : Added old pos j
      · obtain ⟨_, h3, _⟩ := hadd j _ (List.getElem?_eq_getElem hj) hc
        have hz : ∀ (kvs : List (Str × JV)) (key : Str), JV.lookup key kvs = none → occurrences key kvs = 0 := by
          intro kvs key
          induction kvs with
          | nil => intro _; rfl
          | cons x kvs ih =>
            obtain ⟨a, b⟩ := x
            intro hx
            simp only [JV.lookup] at hx
            split at hx
            · cases hx
            · rename_i hne
              rw [occurrences_cons]
              simp [hne, ih hx]
        have := hz kvs _ (by simpa [JV.get] using h3)
        omega
      · simp only [Added, not_forall, Classical.not_not] at hc
        obtain ⟨i, hi, hp⟩ := hc
        have hold := hk i _ (List.getElem?_eq_getElem hi)
        rw [hp, List.getElem?_eq_getElem hj] at hold
        rw [Option.some.inj hold]
        exact h1 _ (List.mem_map.2 ⟨_, List.getElem_mem hi, rfl⟩)
    · intro hs' kv hkv
      have := h2 (hst hs') kv hkv
      simp only [jsonNames, List.mem_map] at this ⊢
      obtain ⟨fd, hfd, he⟩ := this
      obtain ⟨i, hi, rfl⟩ := List.mem_iff_getElem.1 hfd
      exact ⟨_, List.mem_of_getElem? (hk i _ (List.getElem?_eq_getElem hi)), he⟩
  · intro j fd g g' hj hg hg'
    have hj' := (List.getElem?_eq_some_iff.1 hj).1
    rw [hhs j hj'] at hg'
    simp only [R, dif_pos hj', Option.some.injEq] at hg'
    rw [← hg']
    exact (Classical.choose_spec (hex j hj') fd g hj hg).1
  · intro i hi
    have hold := hk i _ (List.getElem?_eq_getElem hi)
    have hj' := (List.getElem?_eq_some_iff.1 hold).1
    rw [hhs _ hj']
    simp only [R, dif_pos hj']
    exact (Classical.choose_spec (hex _ hj') _ (hs[pos i]'(by omega)) hold (List.getElem?_eq_getElem _)).2 i hi rfl

/-- **C47, added fields.**  After the newer version has read a document without a member for an
added field, that field holds its default, or what it held before. -/
theorem C47_added_fields {m : Nat} {strict : Bool} {new : List FieldDecl} (hm : Γ.decl m = some (.struct strict new))
    {doc : JV} {hs hs' : List GoVal} (h : Fills Γ m doc (.struct hs) none (.struct hs')) {j : Nat} {fd : FieldDecl}
    (hj : new[j]? = some fd) (ho : Optional fd doc) :
    (fd.tags.jsonName = str "-" ∨ fd.tags.dflt = [] → hs'[j]? = hs[j]?) ∧
    (fd.tags.jsonName ≠ str "-" → fd.tags.dflt ≠ [] → ∃ d, hs'[j]? = some d ∧ DefaultValue Γ fd.typ fd.tags.dflt d) := by
  refine ⟨fun hc => ?_, fun h1 h2 => C06_default hm h hj ho.1 h1 ho.2.1 h2⟩
  by_cases hx : fd.tags.jsonName = str "-"
  · exact C32_not_read_partial hm h hj hx
  · exact C06_absent_keeps hm h hj ho.1 ho.2.1 (hc.resolve_left hx)

/-- **C47, on text**: `UnmarshalJSON` of the older version reads what that of the newer one reads. -/
theorem C47_old_reader_text {n m : Nat} {strict : Bool} {old new : List FieldDecl} {pos : Nat → Nat}
    (hn : Γ.decl n = some (.struct false old)) (hm : Γ.decl m = some (.struct strict new)) (hk : KeepsFields old new pos)
    {data : Str} {gs hs hs' : List GoVal} (hlen : gs.length = old.length) (hag : AgreeOnFields old pos gs hs)
    (h : Unmarshals Γ m data (.struct hs) none (.struct hs')) :
    ∃ gs', Unmarshals Γ n data (.struct gs) none (.struct gs') ∧ AgreeOnFields old pos gs' hs' := by
  obtain ⟨k, h⟩ := h
  simp only [unmarshalJSON] at h
  cases hp : parseBytes data with
  | none => rw [hp] at h; simp at h
  | some v =>
    rw [hp] at h
    obtain ⟨gs', ⟨K, h1⟩, h2⟩ := C47_old_reader hn hm hk hlen hag ⟨k, h⟩
    exact ⟨gs', ⟨K, by simp only [unmarshalJSON, hp]; exact h1⟩, h2⟩

/-- new values of the two versions agree in the common fields -/
theorem zeros_agree {n m : Nat} {strict strict' : Bool} {old new : List FieldDecl} {pos : Nat → Nat}
    (hn : Γ.decl n = some (.struct strict old)) (hm : Γ.decl m = some (.struct strict' new)) (hk : KeepsFields old new pos)
    {zs ys : List GoVal} (hz : ZeroIs Γ n (.struct zs)) (hy : ZeroIs Γ m (.struct ys)) :
    zs.length = old.length ∧ AgreeOnFields old pos zs ys := by
  obtain ⟨_, ⟨⟩, hl, h⟩ := (zeroIs_struct hn).1 hz
  obtain ⟨_, ⟨⟩, hl', h'⟩ := (zeroIs_struct hm).1 hy
  refine ⟨hl, fun i hi => ?_⟩
  have hp := hk i _ (List.getElem?_eq_getElem hi)
  have hlt := (List.getElem?_eq_some_iff.1 hp).1
  have hz1 : zs[i]? = some (zs[i]'(by omega)) := List.getElem?_eq_getElem _
  have hy1 : ys[pos i]? = some (ys[pos i]'(by omega)) := List.getElem?_eq_getElem _
  rw [hz1, hy1, zeroOf_unique (h i _ _ (List.getElem?_eq_getElem hi) hz1) (h' _ _ _ hp hy1)]

/-- **C47, new writer, old reader, partial** (for values that survive a round trip, see C31): what the
newer version encodes, the older one decodes into a new receiver; the common fields hold what
they held in the value that was encoded. -/
theorem C47_written_by_new_partial {X : Nat → GoVal → Prop} {S : Nat → Prop} {F : Nat → Option GoVal → JV → Prop}
    (hP : Package Γ X S) (hE : EncPackage Γ F S) (hR : TripPackage Γ X F S)
    {n m : Nat} {strict : Bool} {old new : List FieldDecl} {pos : Nat → Nat} (hS : S m)
    (hn : Γ.decl n = some (.struct false old)) (hm : Γ.decl m = some (.struct strict new)) (hk : KeepsFields old new pos)
    {vs : List GoVal} (hv : HasType Γ X (.named m) (.struct vs)) (hf : Fine Γ F (.named m) (.struct vs))
    (hl : Lossless Γ (.named m) (.struct vs)) {data : Str} (h : Marshals Γ m (some (.struct vs)) (.ok data))
    (hdep : ∀ jv, Json jv data → DepthLe 300 jv) {zs ys : List GoVal} (hz : ZeroIs Γ n (.struct zs)) (hy : ZeroIs Γ m (.struct ys)) :
    ∃ gs, Unmarshals Γ n data (.struct zs) none (.struct gs) ∧ AgreeOnFields old pos gs (vs.map GoVal.trim) := by
  have hu := C31_round_trip_partial hP hE hR hS hv hf hl h hdep hy
  rw [show (GoVal.struct vs).trim = .struct (vs.map GoVal.trim) by rw [GoVal.trim, trimAll_eq]] at hu
  obtain ⟨hlen, hag⟩ := zeros_agree hn hm hk hz hy
  exact C47_old_reader_text hn hm hk hlen hag hu

/-! ## C48 -/

theorem validateLoop_known {names : List Str} : ∀ {kvs : List (Str × JV)} {cs : List Nat}, cs.length = names.length →
    (∀ kv ∈ kvs, kv.1 ∈ names) → validateLoop names true kvs cs = validateLoop names false kvs cs
  | [], _, _, _ => rfl
  | (key, v) :: kvs, cs, hl, h => by
    simp only [validateLoop]
    cases hb : bump key names cs with
    | none => exact absurd (h (key, v) (by simp)) ((bump_none hl).1 hb)
    | some p =>
      obtain ⟨c, cs'⟩ := p
      simp only
      split
      · rfl
      · exact validateLoop_known (bump_some hl hb).2.2.1 fun kv hkv => h kv (by simp [hkv])

theorem validate_known {names : List Str} {v : JV} (h : ∀ kvs, v = .obj kvs → ∀ kv ∈ kvs, kv.1 ∈ names) :
    validate names true v = validate names false v := by
  cases v with
  | obj kvs =>
    simp only [validate, JV.getObj]
    exact validateLoop_known (by simp) (h kvs rfl)
  | _ => rfl

/-- **C48.**  On a document without unknown members the tag `strict` changes nothing: not the
result, not the receiver, not the error, not even whether the decoder panics. -/
theorem C48_known_members {n m : Nat} {fields : List FieldDecl} (hn : Γ.decl n = some (.struct true fields))
    (hm : Γ.decl m = some (.struct false fields)) {doc : JV}
    (hkeys : ∀ kvs, doc = .obj kvs → ∀ kv ∈ kvs, kv.1 ∈ jsonNames fields) {s : GoVal} {r : Out (Option Err × GoVal)} :
    FillsTo Γ n doc s r ↔ FillsTo Γ m doc s r := by
  have heq : ∀ k, (Γ.methods k n).fill doc s = (Γ.methods k m).fill doc s := by
    intro k
    cases k with
    | zero => rfl
    | succ k =>
      rw [methods_struct hn, methods_struct hm]
      congr 1
      funext fs
      cases s with
      | struct gs => simp only [runFill, validate_known hkeys]
      | _ => rfl
  simp only [FillsTo, heq]

/-- **C48.**  What a strict type accepts, the same type without the tag accepts with the same
result. -/
theorem C48_strict_success {n m : Nat} {fields : List FieldDecl} (hn : Γ.decl n = some (.struct true fields))
    (hm : Γ.decl m = some (.struct false fields)) {doc : JV} {s s' : GoVal} (h : Fills Γ n doc s none s') :
    Fills Γ m doc s none s' := by
  obtain ⟨gs, gs', k, fs, rfl, rfl, _, h1 | h1⟩ := fills_struct hn h
  · exact absurd ((validate_iff _ _ _).1 h1.2.1.symm) h1.1
  · obtain ⟨kvs, rfl, _, h3⟩ := h1.1
    have := (C48_known_members hn hm (doc := .obj kvs) (s := .struct gs) (r := .ok (none, .struct gs'))
      (by rintro _ ⟨⟩; exact h3 rfl)).1 ⟨by simp, h⟩
    exact this.2

/-- **C48.**  What the lenient type accepts, the strict one accepts (with the same result) exactly
when every member is known. -/
theorem C48_strict_iff {n m : Nat} {fields : List FieldDecl} (hn : Γ.decl n = some (.struct true fields))
    (hm : Γ.decl m = some (.struct false fields)) {kvs : List (Str × JV)} {s s' : GoVal} (h : Fills Γ m (.obj kvs) s none s') :
    Fills Γ n (.obj kvs) s none s' ↔ ∀ kv ∈ kvs, kv.1 ∈ jsonNames fields := by
  constructor
  · intro h'
    obtain ⟨gs, gs', k, fs, rfl, rfl, _, h1 | h1⟩ := fills_struct hn h'
    · exact absurd ((validate_iff _ _ _).1 h1.2.1.symm) h1.1
    · obtain ⟨_, ⟨⟩, _, h3⟩ := h1.1
      exact h3 rfl
  · intro hk
    exact ((C48_known_members hn hm (doc := .obj kvs) (s := s) (r := .ok (none, s')) (by rintro _ ⟨⟩; exact hk)).2 ⟨by simp, h⟩).2

/-- **C48.**  Encoding, `IsZero` and `Reset` do not see the tag. -/
theorem C48_rest_same {n m : Nat} {strict strict' : Bool} {fields : List FieldDecl} (hn : Γ.decl n = some (.struct strict fields))
    (hm : Γ.decl m = some (.struct strict' fields)) :
    (∀ recv w e w', MarshalsTo Γ n recv w e w' ↔ MarshalsTo Γ m recv w e w') ∧
    (∀ recv r, Marshals Γ n recv r ↔ Marshals Γ m recv r) ∧
    (∀ v b, IsZeroIs Γ n v b ↔ IsZeroIs Γ m v b) ∧ (∀ v v', ResetsTo Γ n v v' ↔ ResetsTo Γ m v v') ∧
    (∀ z, ZeroIs Γ n z ↔ ZeroIs Γ m z) := by
  have heq : ∀ k, (Γ.methods k n).marshalTo = (Γ.methods k m).marshalTo ∧ (Γ.methods k n).isZero = (Γ.methods k m).isZero ∧
      (Γ.methods k n).reset = (Γ.methods k m).reset ∧ (Γ.methods k n).zero = (Γ.methods k m).zero := by
    intro k
    cases k with
    | zero => exact ⟨rfl, rfl, rfl, rfl⟩
    | succ k => simp only [Env.methods, hn, hm]; exact ⟨rfl, rfl, rfl, rfl⟩
  refine ⟨fun recv w e w' => ?_, fun recv r => ?_, fun v b => ?_, fun v v' => ?_, fun z => ?_⟩
  · simp only [MarshalsTo, (heq _).1]
  · simp only [Marshals, marshalJSON, (heq _).1]
  · simp only [IsZeroIs, (heq _).2.1]
  · simp only [ResetsTo, (heq _).2.2.1]
  · simp only [ZeroIs, (heq _).2.2.2]

end

namespace Examples
open Sample
attribute [local instance] Sample.ext

/-- User has the field of type 11 (Name string), at position 1 -/
theorem name_kept : KeepsFields [⟨.prim .string, tag "name"⟩] user (fun _ => 1) := by
  intro i fd h
  match i with
  | 0 => simp at h; subst h; rfl
  | i + 1 => simp at h

/-- User has the field of type 10 (ID int8, required), at position 0 -/
theorem id_kept : KeepsFields [⟨.prim .int8, tagOpt "id" "required"⟩] user (fun _ => 0) := by
  intro i fd h
  match i with
  | 0 => simp at h; subst h; rfl
  | i + 1 => simp at h

/-- C47: a document written for User is read by the older type, which only knows the name -/
example : ∃ gs', Fills Γ 11 ann (.struct [.str (str "old")]) none (.struct gs') ∧
    AgreeOnFields [⟨.prim .string, tag "name"⟩] (fun _ => 1) gs'
      [.int 5, .str (str "ann"), .ptr (.str (str "n")), .slice [.str (str "x"), .str (str "y")] [], .int 7, .str (str "s3cret")] :=
  C47_old_reader (n := 11) (m := 0) rfl rfl name_kept rfl
    (hs := [.int 1, .str (str "old"), .ptr (.str (str "n")), .slice [.str (str "q")] [.str (str "r")], .int 3, .str (str "s3cret")])
    (by intro i hi; match i with | 0 => rfl | i + 1 => simp at hi) ann_fills

/-- {"id":5} -/
def onlyId : JV := .obj [(str "id", .num (str "5"))]

set_option maxRecDepth 20000 in
theorem onlyId_fills : Fills Γ 10 onlyId (.struct [.int 1]) none (.struct [.int 5]) := ⟨5, rfl⟩

set_option maxRecDepth 20000 in
theorem user_decoder : HasDecoder Γ 0 := ⟨_, 5, _, rfl, rfl⟩

/-- the fields User has in addition may all be left out -/
theorem onlyId_optional : ∀ (j : Nat) fd, user[j]? = some fd →
    Added [⟨.prim .int8, tagOpt "id" "required"⟩] (fun _ => 0) j → Optional fd onlyId := by
  intro j fd hj ha
  match j with
  | 0 => exact absurd rfl (ha 0 (by decide))
  | 1 => simp [user] at hj; subst hj; exact ⟨by decide, rfl, by decide⟩
  | 2 => simp [user] at hj; subst hj; exact ⟨by decide, rfl, by decide⟩
  | 3 => simp [user] at hj; subst hj; exact ⟨by decide, rfl, by decide⟩
  | 4 => simp [user] at hj; subst hj; exact ⟨by decide, rfl, by decide⟩
  | 5 => simp [user] at hj; subst hj; exact ⟨by decide, rfl, by decide⟩
  | j + 6 => simp [user] at hj

/-- C47: a document written for type 10, which only knows the id, is read by User -/
example : ∃ hs', Fills Γ 0 onlyId used none (.struct hs') ∧
    AgreeOnFields [⟨.prim .int8, tagOpt "id" "required"⟩] (fun _ => 0) [.int 5] hs' :=
  C47_new_reader (n := 10) (m := 0) rfl rfl user_decoder id_kept (by simp) onlyId_optional rfl
    (by intro i hi; match i with | 0 => rfl | i + 1 => simp at hi) onlyId_fills

/-- … and the level gets its default -/
example {hs' : List GoVal} (h : Fills Γ 0 onlyId used none (.struct hs')) :
    ∃ d, hs'[4]? = some d ∧ DefaultValue Γ (.prim .int) (str "7") d :=
  (C47_added_fields (m := 0) rfl h (j := 4) rfl (onlyId_optional 4 _ rfl (by intro i _; simp))).2 (by decide) (by decide)

/-- Trip has the field of type 54 (L []Base), at position 2 -/
theorem l_kept : KeepsFields [⟨.slice (.named 2), tag "l"⟩] trip (fun _ => 2) := by
  intro i fd h
  match i with
  | 0 => simp at h; subst h; rfl
  | i + 1 => simp at h

/-- C47: what is encoded as a Trip is decoded by a type that knows one of its fields only -/
example : ∃ gs, Unmarshals Γ 54 tripText (.struct [.nil]) none (.struct gs) ∧
    gs[0]? = some (.slice [.struct [.int 1], .struct [.int 0]] []) := by
  obtain ⟨gs, h, ha⟩ := C47_written_by_new_partial trip_package trip_encPackage trip_tripPackage (n := 54) (by decide) rfl rfl l_kept trip_typed
    trip_fine trip_lossless trip_marshals (fun _ => trip_depth) ⟨5, rfl⟩ trip_zero
  refine ⟨gs, h, (ha 0 (by decide)).trans ?_⟩
  simp [GoVal.trim, trimAll]

/-- **C47 needs an older version that is lenient**: a strict one rejects the added members. -/
theorem C47_strict_old_reader : Fills Γ 0 ann used none annDecoded ∧
    ¬ Acceptable [str "name"] true ann := by
  refine ⟨ann_fills, ?_⟩
  rintro ⟨kvs, h, _, h2⟩
  cases h
  exact absurd (h2 rfl (str "id", .num (str "5")) (by simp)) (by decide)

set_option maxRecDepth 20000 in
/-- C48: Account is User with the tag `strict`; the sample document has no unknown members -/
example : Fills Γ 1 ann used none annDecoded ∧ Fills Γ 0 ann used none annDecoded :=
  ⟨((C48_known_members (n := 1) (m := 0) (fields := user) rfl rfl (by rintro _ ⟨⟩; decide)).2 ⟨by simp, ann_fills⟩).2, ann_fills⟩

/-- {"id":5,"zz":null} -/
def idAndMore : JV := .obj [(str "id", .num (str "5")), (str "zz", .null)]

set_option maxRecDepth 20000 in
/-- with an unknown member only the lenient type accepts -/
example : (∃ s', Fills Γ 0 idAndMore used none s') ∧ ¬ ∃ s', Fills Γ 1 idAndMore used none s' := by
  have h : Fills Γ 0 idAndMore used none (.struct [.int 5, .str (str "old"), .ptr (.str (str "n")),
      .slice [.str (str "q")] [.str (str "r")], .int 7, .str (str "s3cret")]) := ⟨5, rfl⟩
  refine ⟨⟨_, h⟩, ?_⟩
  rintro ⟨s', h'⟩
  have h0 := C48_strict_success (n := 1) (m := 0) (fields := user) rfl rfl h'
  obtain ⟨_, rfl⟩ := fills_unique h0 h
  have := (C48_strict_iff (n := 1) (m := 0) (fields := user) rfl rfl h).1 h' (str "zz", .null) (by simp)
  exact absurd this (by decide)

end Examples

end VJ
