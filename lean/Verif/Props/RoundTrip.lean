import Verif.Proof.RoundTripMain
import Verif.Props.EncodeFields
import Verif.Props.Text
import Verif.Props.Integers

/-!
# C31 (with C28, C29, C30, C33, C42): what is encoded is decoded again
-/

namespace VJ
set_option linter.unusedSectionVars false

section
variable [Ext] {Γ : Env} {X : Nat → GoVal → Prop} {S : Nat → Prop} {F : Nat → Option GoVal → JV → Prop}

/-- the same for the document: `FillFromJSON` of what the value stands for -/
theorem encoded_fills (hP : Package Γ X S) (hE : EncPackage Γ F S) (hR : TripPackage Γ X F S) {n : Nat} (hn : S n) {v : GoVal}
    (hv : HasType Γ X (.named n) v) (hl : Lossless Γ (.named n) v) {jv : JV} (h : Enc Γ F (.decl n) v jv) {z : GoVal} (hz : ZeroIs Γ n z) :
    Fills Γ n jv z none v.trim := by
  have hT : Trip Γ X F S (.named n) v := ⟨hP, hE, hR, shapes hP fun m strict fields fd hm hd hf => (hR.named m strict fields fd hm hd hf).1, hl⟩
  obtain ⟨hA, _⟩ := round_trip hT h _ (.named n) .self hv hn
  refine hA z jv (fun hnil => ?_) hz (.inl rfl)
  subst hnil
  cases hd : Γ.decl n with
  | none => exact .inl rfl
  | some d =>
    cases d with
    | struct strict fields => obtain ⟨gs, h, _⟩ := hv.of_struct (.named n) hd; cases h
    | «alias» u => exact .inr ⟨u, rfl, hl.nilTop n u rfl rfl hd⟩

/-- **C31, partial.**  Decoding the output of `MarshalJSON` into a new receiver of the same type
succeeds and gives back the value.  The spare capacity of slices is not part of the value.
Missing: the types that `TripPackage` leaves out, the values that `Lossless` leaves out, each of
which is shown below to be lost; values with the comma trouble of C21; documents nested more
than 300 deep, which the parser refuses. -/
theorem C31_round_trip_partial (hP : Package Γ X S) (hE : EncPackage Γ F S) (hR : TripPackage Γ X F S) {n : Nat} (hn : S n) {v : GoVal}
    (hv : HasType Γ X (.named n) v) (hf : Fine Γ F (.named n) v) (hl : Lossless Γ (.named n) v) {s : Str}
    (h : Marshals Γ n (some v) (.ok s)) (hdep : ∀ jv, Json jv s → DepthLe 300 jv) {z : GoVal} (hz : ZeroIs Γ n z) :
    Unmarshals Γ n s z none v.trim := by
  obtain ⟨jv, h1, h2⟩ := encode_document hE hn hv hf h
  exact (unmarshals_document ⟨[], s, [], by simp, by simp [Ws], by simp [Ws], h2⟩ (hdep jv h2)).2 (encoded_fills hP hE hR hn hv hl h1 hz)

/-- … and nothing else, whatever it is asked for. -/
theorem C31_round_trip_exact_partial (hP : Package Γ X S) (hE : EncPackage Γ F S) (hR : TripPackage Γ X F S) {n : Nat} (hn : S n) {v : GoVal}
    (hv : HasType Γ X (.named n) v) (hf : Fine Γ F (.named n) v) (hl : Lossless Γ (.named n) v) {s : Str}
    (h : Marshals Γ n (some v) (.ok s)) (hdep : ∀ jv, Json jv s → DepthLe 300 jv) {z : GoVal} (hz : ZeroIs Γ n z) {e : Option Err} {v' : GoVal} :
    Unmarshals Γ n s z e v' ↔ e = none ∧ v' = v.trim := by
  obtain ⟨jv, h1, h2⟩ := encode_document hE hn hv hf h
  have hu : ∀ {e v'}, Unmarshals Γ n s z e v' ↔ Fills Γ n jv z e v' := fun {e v'} =>
    unmarshals_document ⟨[], s, [], by simp, by simp [Ws], by simp [Ws], h2⟩ (hdep jv h2)
  have hfill := encoded_fills hP hE hR hn hv hl h1 hz
  constructor
  · intro hx
    obtain ⟨h, h'⟩ := fills_unique (hu.1 hx) hfill
    exact ⟨h, h'⟩
  · rintro ⟨rfl, rfl⟩
    exact hu.2 hfill

/-! ### single fields, whatever happens to the others -/

/-- the member of a field in the document that is written -/
theorem written_member (hP : Package Γ X S) (hE : EncPackage Γ F S) (hR : TripPackage Γ X F S) (hF : ∀ n r a b, F n r a → F n r b → a = b)
    {n : Nat} (hn : S n) {strict : Bool} {fields : List FieldDecl} (hd : Γ.decl n = some (.struct strict fields)) {gs : List GoVal}
    (hv : HasType Γ X (.named n) (.struct gs)) (hf : Fine Γ F (.named n) (.struct gs)) {s : Str}
    (h : Marshals Γ n (some (.struct gs)) (.ok s)) {i : Nat} {fd : FieldDecl} {g : GoVal} (hi : fields[i]? = some fd) (hg : gs[i]? = some g)
    (hj : fd.tags.jsonName ≠ []) {jv : JV} (he : Enc Γ F (.field fd) g (.obj [(fd.tags.jsonName, jv)])) :
    ∃ doc, Json doc s ∧ doc.get fd.tags.jsonName = some jv := by
  obtain ⟨ms, hjs, hlen, hms⟩ := C22_members_partial hE hn hd hv hf h
  refine ⟨_, hjs, get_some ?_⟩
  have hfo : ∀ {fd}, fd ∈ fields → FieldOf Γ S fd := fun h => ⟨n, strict, fields, hn, hd, h⟩
  obtain ⟨gs', hgs, hgl, _⟩ := hv.of_struct (.named n) hd
  cases hgs
  have hlt : i < ms.length := by rw [hlen]; exact (List.getElem?_eq_some_iff.1 hi).1
  have hmi : ms[i]? = some ms[i] := List.getElem?_eq_getElem hlt
  obtain ⟨henc, _⟩ := hms i fd g _ hi hg hmi
  have := enc_unique hF henc he
  simp only [JV.obj.injEq] at this
  rw [membersAt_flatten hmi, this]
  · simp [membersAt]
  · intro j mj hne hmj kv hkv heq
    have hltj : j < fields.length := by rw [← hlen]; exact (List.getElem?_eq_some_iff.1 hmj).1
    have hfj : fields[j]? = some fields[j] := List.getElem?_eq_getElem hltj
    have hgj : gs[j]? = some gs[j] := List.getElem?_eq_getElem (by omega)
    have hk := (enc_keys hP hR (hms j fields[j] gs[j] mj hfj hgj hmj).1 (hfo (List.mem_of_getElem? hfj)) mj rfl).1 kv hkv
    rw [heq] at hk
    exact hne (hR.distinct n strict fields j i fields[j] fd _ hn hd hfj hi hk (.inl ⟨hj, rfl⟩))

/-- a field of the struct read from text -/
theorem after_text {n : Nat} {strict : Bool} {fields : List FieldDecl} (hd : Γ.decl n = some (.struct strict fields)) {s : Str} {doc : JV}
    (hj : Json doc s) (hdep : DepthLe 300 doc) {zs gs' : List GoVal} (hu : Unmarshals Γ n s (.struct zs) none (.struct gs')) {i : Nat}
    {fd : FieldDecl} {z new : GoVal} (hi : fields[i]? = some fd) (hz : zs[i]? = some z) (hnew : gs'[i]? = some new) :
    FieldAfter Γ n doc fd z new :=
  ⟨strict, fields, zs, gs', i, hd, hi, hz, hnew, (unmarshals_document ⟨[], s, [], by simp, by simp [Ws], by simp [Ws], hj⟩ hdep).1 hu⟩

/-- **C28, partial** (see `Fine`, `TripPackage`): an integer field of a struct that is encoded and
decoded again, into any receiver, holds the integer it held, whatever the other fields hold. -/
theorem C28_round_trip_partial (hP : Package Γ X S) (hE : EncPackage Γ F S) (hR : TripPackage Γ X F S) (hF : ∀ n r a b, F n r a → F n r b → a = b)
    {n : Nat} (hn : S n) {strict : Bool} {fields : List FieldDecl} (hd : Γ.decl n = some (.struct strict fields)) {gs : List GoVal}
    (hv : HasType Γ X (.named n) (.struct gs)) (hf : Fine Γ F (.named n) (.struct gs)) {s : Str}
    (h : Marshals Γ n (some (.struct gs)) (.ok s)) (hdep : ∀ jv, Json jv s → DepthLe 300 jv) {i : Nat} {fd : FieldDecl} {p : Prim} {x : Int}
    (hi : fields[i]? = some fd) (hg : gs[i]? = some (.int x)) (hp : IsPrim Γ fd.typ p) (hx : x ≠ 0 ∨ fd.tags.omitempty = false)
    {zs gs' : List GoVal} {z new : GoVal} (hz : zs[i]? = some z) (hnew : gs'[i]? = some new)
    (hu : Unmarshals Γ n s (.struct zs) none (.struct gs')) : new = .int x := by
  have hfo : FieldOf Γ S fd := ⟨n, strict, fields, hn, hd, List.mem_of_getElem? hi⟩
  have hj := fieldKind_named hR hfo (.scalar hp) (by simp)
  have hdash := (hR.named n strict fields fd hn hd (List.mem_of_getElem? hi)).1
  have henc : Enc Γ F (.field fd) (.int x) (.obj [(fd.tags.jsonName, .num (intStr x))]) := by
    by_cases h0 : x = 0
    · subst h0
      exact .empty (.scalar hp) (.scalar .int) (hx.resolve_left (by simp)) (.scalar (by simp) (.int 0))
    · exact .scalarField (.scalar hp) (fun h => h0 (by cases h; rfl)) (.int x)
  obtain ⟨doc, hjs, hget⟩ := written_member hP hE hR hF hn hd hv hf h hi hg hj henc
  have hfa := after_text hd hjs (hdep doc hjs) hu hi hz hnew
  obtain ⟨gs0, hgs, _, hty⟩ := hv.of_struct (.named n) hd
  cases hgs
  have hpt := (hty i fd _ hi hg).of_isPrim hp
  have hpi : p.isInt = true ∧ p.minValue ≤ x ∧ x ≤ p.maxValue := by
    cases hpt with
    | int hw hr =>
      have hsh := shapes hP fun m strict fields fd hm hd hf => (hR.named m strict fields fd hm hd hf).1
      have := hsh.isPrim (hP.field hn hd (List.mem_of_getElem? hi)) (hsh.field n strict fields fd hn hd (List.mem_of_getElem? hi)).1 hp
      have hint : p.isInt = true := by cases p <;> simp_all [Prim.isWhole, Prim.isInt]
      exact ⟨hint, by cases p <;> simp_all [Prim.inRange, Prim.minValue, Prim.maxValue, Prim.isInt]⟩
  have hpo : pointee fd.typ = fd.typ := isPrim_pointee hp
  obtain ⟨raw, w, y, hraw, htok, _, hh, heq, _⟩ := C08_decoded_integer_partial hfa hdash hj (by rw [hpo]; exact hp) hpi.1 hget (by simp)
  cases hraw
  have hwx : w = x := IntToken.unique htok (intStr_token x)
  subst hwx
  have hyx := heq hpi.2.1
  subst hyx
  cases htyp : fd.typ with
  | star u => rw [htyp] at hp; cases hp
  | _ => rw [htyp] at hh; exact hh

/-- **C29, partial** (see `Fine`, `TripPackage`): bytes are what they were after encoding and
decoding. -/
theorem C29_round_trip_partial (hP : Package Γ X S) (hE : EncPackage Γ F S) (hR : TripPackage Γ X F S) (hF : ∀ n r a b, F n r a → F n r b → a = b)
    {n : Nat} (hn : S n) {strict : Bool} {fields : List FieldDecl} (hd : Γ.decl n = some (.struct strict fields)) {gs : List GoVal}
    (hv : HasType Γ X (.named n) (.struct gs)) (hf : Fine Γ F (.named n) (.struct gs)) {s : Str}
    (h : Marshals Γ n (some (.struct gs)) (.ok s)) (hdep : ∀ jv, Json jv s → DepthLe 300 jv) {i : Nat} {fd : FieldDecl} {b : List UInt8} {g : GoVal}
    (hi : fields[i]? = some fd) (hg : gs[i]? = some g)
    (hb : (Is Γ fd.typ (.slice (.prim .byte)) ∧ g = .bytes b) ∨
      ((∃ len, Is Γ fd.typ (.array len (.prim .byte))) ∧ g = .barr b ∧ ∃ x ∈ b, x ≠ 0))
    {zs gs' : List GoVal} {z new : GoVal} (hz : zs[i]? = some z) (hnew : gs'[i]? = some new)
    (hu : Unmarshals Γ n s (.struct zs) none (.struct gs')) : new = g := by
  have hfo : FieldOf Γ S fd := ⟨n, strict, fields, hn, hd, List.mem_of_getElem? hi⟩
  have hdash := (hR.named n strict fields fd hn hd (List.mem_of_getElem? hi)).1
  have huniq : ∀ {b'}, B64 (withoutBreaks (b64Encode b)) b' → b' = b := by
    intro b' h'
    have h1 : Base64Text (b64Encode b) b' := ((C29_base64 b' _).1).2 h'
    have h2 := base64Text_encode b
    rw [base64_decode] at h1 h2
    rw [h1] at h2
    exact (Prod.mk.inj h2).1
  rcases hb with ⟨ht, rfl⟩ | ⟨⟨len, ht⟩, rfl, hnz⟩
  · have hj := fieldKind_named hR hfo (.bytes ht) (by simp)
    obtain ⟨doc, hjs, hget⟩ := written_member hP hE hR hF hn hd hv hf h hi hg hj (.bytesField (b := b) (.bytes ht))
    obtain ⟨b', rfl, hb'⟩ := C29_bytes_field (after_text hd hjs (hdep doc hjs) hu hi hz hnew) hdash hj ht hget
    rw [huniq hb']
  · have hj := fieldKind_named hR hfo (.fixedBytes ht) (by simp)
    obtain ⟨doc, hjs, hget⟩ := written_member hP hE hR hF hn hd hv hf h hi hg hj (.fixedField (b := b) (.fixedBytes ht) hnz)
    obtain ⟨b', rfl, _, hb'⟩ := C29_fixed_field (after_text hd hjs (hdep doc hjs) hu hi hz hnew) hdash hj ht hget
    rw [huniq hb']

/-- **C30, partial** (see `Fine`, `TripPackage`): UUIDs are what they were after encoding and
decoding. -/
theorem C30_round_trip_partial (hP : Package Γ X S) (hE : EncPackage Γ F S) (hR : TripPackage Γ X F S) (hF : ∀ n r a b, F n r a → F n r b → a = b)
    {n : Nat} (hn : S n) {strict : Bool} {fields : List FieldDecl} (hd : Γ.decl n = some (.struct strict fields)) {gs : List GoVal}
    (hv : HasType Γ X (.named n) (.struct gs)) (hf : Fine Γ F (.named n) (.struct gs)) {s : Str}
    (h : Marshals Γ n (some (.struct gs)) (.ok s)) (hdep : ∀ jv, Json jv s → DepthLe 300 jv) {i : Nat} {fd : FieldDecl} {b : List UInt8}
    (hi : fields[i]? = some fd) (hg : gs[i]? = some (.uuid b)) (ht : fd.typ = .uuid)
    {zs gs' : List GoVal} {z new : GoVal} (hz : zs[i]? = some z) (hnew : gs'[i]? = some new)
    (hu : Unmarshals Γ n s (.struct zs) none (.struct gs')) : new = .uuid b := by
  have hfo : FieldOf Γ S fd := ⟨n, strict, fields, hn, hd, List.mem_of_getElem? hi⟩
  have hdash := (hR.named n strict fields fd hn hd (List.mem_of_getElem? hi)).1
  have hk : FieldKind Γ fd.typ .uuid := by rw [ht]; exact .uuid
  have hj := fieldKind_named hR hfo hk (by simp)
  obtain ⟨gs0, hgs, _, hty⟩ := hv.of_struct (.named n) hd
  cases hgs
  have hlen : b.length = 16 := by
    have := hty i fd _ hi hg
    rw [ht] at this
    exact typedUUID_length this
  obtain ⟨doc, hjs, hget⟩ := written_member hP hE hR hF hn hd hv hf h hi hg hj (.uuidField (b := b) hk)
  exact (C30_field (after_text hd hjs (hdep doc hjs) hu hi hz hnew) hdash hj (by rw [ht]; exact .self _) hget).1 (.text (uuidText_text hlen).1)

/-- **C42, partial** (see `Fine`, `TripPackage`): a time that is not zero is read again from the
text written for it, under the layouts of its field; so if these read what they write, it is the
time it was. -/
theorem C42_round_trip_partial (hP : Package Γ X S) (hE : EncPackage Γ F S) (hR : TripPackage Γ X F S) (hF : ∀ n r a b, F n r a → F n r b → a = b)
    {n : Nat} (hn : S n) {strict : Bool} {fields : List FieldDecl} (hd : Γ.decl n = some (.struct strict fields)) {gs : List GoVal}
    (hv : HasType Γ X (.named n) (.struct gs)) (hf : Fine Γ F (.named n) (.struct gs)) {s : Str}
    (h : Marshals Γ n (some (.struct gs)) (.ok s)) (hdep : ∀ jv, Json jv s → DepthLe 300 jv) {i : Nat} {fd : FieldDecl} {t : Time}
    (hi : fields[i]? = some fd) (hg : gs[i]? = some (.time t)) (ht : fd.typ = .time) (ht0 : t.isZero = false)
    {zs gs' : List GoVal} {z new : GoVal} (hz : zs[i]? = some z) (hnew : gs'[i]? = some new)
    (hu : Unmarshals Γ n s (.struct zs) none (.struct gs')) :
    ∃ t', new = .time t' ∧ ReadsTime fd.tags.layout
      (Ext.fmtTime (if fd.tags.layout = [] then str "2006-01-02T15:04:05.999999999Z07:00" else fd.tags.layout) t) t' := by
  have hfo : FieldOf Γ S fd := ⟨n, strict, fields, hn, hd, List.mem_of_getElem? hi⟩
  have hdash := (hR.named n strict fields fd hn hd (List.mem_of_getElem? hi)).1
  have hk : FieldKind Γ fd.typ .time := by rw [ht]; exact .time
  have hj := fieldKind_named hR hfo hk (by simp)
  obtain ⟨doc, hjs, hget⟩ := written_member hP hE hR hF hn hd hv hf h hi hg hj (.timeField hk ht0)
  obtain ⟨s', t', hs', hh, hr⟩ := C42_read (after_text hd hjs (hdep doc hjs) hu hi hz hnew) hdash hj (by rw [ht]; exact .self _) hget
    (by rintro ⟨u, h⟩; rw [ht] at h; cases h)
  cases hs'
  rw [ht] at hh
  exact ⟨t', hh, hr⟩

/-- **C33, reading.**  A field without a JSON name whose type is a struct is decoded from the whole
object of its parent, by its own method. -/
theorem C33_read_from_parent {n m : Nat} {strict strict' : Bool} {fields fields' : List FieldDecl} (hd : Γ.decl n = some (.struct strict fields))
    {doc : JV} {gs gs' : List GoVal} (h : Fills Γ n doc (.struct gs) none (.struct gs')) {i : Nat} {fd : FieldDecl}
    (hi : fields[i]? = some fd) (hj : fd.tags.jsonName = []) (ht : fd.typ = .named m) (hm : Γ.decl m = some (.struct strict' fields')) {new : GoVal}
    (hnew : gs'[i]? = some new) : ∃ old, gs[i]? = some old ∧ Fills Γ m doc old none new := by
  have hc : Calls Γ (.named m) m := .struct hm
  have hk : KeepsErrors Γ (pointee fd.typ) := by
    rw [ht]
    refine keepsErrors_leaf fun elt he => ?_
    rcases he with he | ⟨len, he⟩ | he <;> cases he with | named h => rw [hm] at h; cases h
  obtain ⟨old, ho, hdec, _⟩ := field_decoded hd h hi hk hnew (by rw [hj]; simp [str]) (.inl ⟨hj, rfl⟩) (by rw [ht]; intro h; cases h)
  rw [ht] at hdec
  exact ⟨old, ho, decodes_call_inv hc hdec⟩

end

end VJ
