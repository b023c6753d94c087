import Verif.Props.Times

/-!
# C82, C83, C84: samples, and the times that are lost
-/

namespace VJ.Examples.Times
open TimeText

/-- Go's times, and the numbers of the other samples -/
@[instance_reducible] def goExt : Ext :=
  { Sample.ext with
    parseTime := fun l s => (chunks l).bind (parse · s)
    fmtTime := fun l t => ((chunks l).map (format · t)).getD []
    timeText := marshalText }

attribute [local instance] goExt

theorem goTimes : GoTimes where
  parse s h := by show (chunks _).bind (parse · s) = _; rw [h]; rfl
  format t h := by show ((chunks _).map (format · t)).getD [] = _; rw [h]; rfl
  text _ := rfl

/-- 2024-02-29 12:30:45.67 +03:00 -/
def leapDay : Time := ⟨dayNumber 2024 2 29 * 86400000000000 + (9 * 3600 + 30 * 60 + 45) * 1000000000 + 670000000, 10800⟩

/-- type Event struct { At time.Time `json:"at"`; On time.Time `json:"on" layout:"02.01.2006"` } -/
def event : List FieldDecl :=
  [⟨.time, { jsonName := str "at" }⟩, ⟨.time, { jsonName := str "on", layout := str "02.01.2006" }⟩]
/-- type Visit struct { In time.Time `json:"in"`; Out *time.Time `json:"out,omitempty"` } -/
def visit : List FieldDecl :=
  [⟨.time, { jsonName := str "in" }⟩, ⟨.star .time, { jsonName := str "out", appendix := str "omitempty" }⟩]
def Γ : Env :=
  { decl := fun n => if n = 0 then some (.struct false event) else if n = 1 then some (.struct false visit) else none
    ext := fun _ => .unsupp }

/-! ### C82 -/

theorem leapDay_names : Names (str "2024-02-29T12:30:45.67+03:00") leapDay :=
  (C82_reads goTimes).1 (C42_default_layouts.2 (.inl (by decide +kernel)))

/-- the same time, spaced and dotted, with a comma and a trailing zero -/
example : Names (str "2024-02-29 12:30:45,67+03:00") leapDay ∧ Names (str "29.02.2024 12:30:45.670+03:00") leapDay := by
  constructor
  · refine (C82_reads goTimes).1 (C42_default_layouts.2 (.inr ⟨?_, .inr ⟨?_, .inl ?_⟩⟩)) <;> decide +kernel
  · refine (C82_reads goTimes).1 (C42_default_layouts.2 (.inr ⟨?_, .inr ⟨?_, .inr ⟨?_, ?_⟩⟩⟩)) <;> decide +kernel

/-- there was no 29 February in 2023 -/
example (t : Time) : ¬ Names (str "2023-02-29T12:30:45Z") t := by
  intro h
  have h' := C42_default_layouts.1 ((C82_reads goTimes).2 h)
  have h1 : Ext.parseTime (str "2006-01-02T15:04:05.999999999Z07:00") (str "2023-02-29T12:30:45Z") = none := by decide +kernel
  have h2 : Ext.parseTime (str "2006-01-02T15:04:05Z07:00") (str "2023-02-29T12:30:45Z") = none := by decide +kernel
  have h3 : Ext.parseTime (str "2006-01-02 15:04:05Z07:00") (str "2023-02-29T12:30:45Z") = none := by decide +kernel
  have h4 : Ext.parseTime (str "02.01.2006 15:04:05Z07:00") (str "2023-02-29T12:30:45Z") = none := by decide +kernel
  rcases h' with h' | ⟨_, h' | ⟨_, h' | ⟨_, h'⟩⟩⟩
  · rw [h1] at h'; cases h'
  · rw [h2] at h'; cases h'
  · rw [h3] at h'; cases h'
  · rw [h4] at h'; cases h'

/-- a struct with one time -/
def stamp : FieldDecl := ⟨.time, { jsonName := str "at" }⟩
def Γ1 : Env := { decl := fun n => if n = 0 then some (.struct false [stamp]) else none, ext := fun _ => .unsupp }

example : Fills Γ1 0 (.obj [(str "at", .str (str "2024-02-29T12:30:45.67+03:00"))]) (.struct [.time .zero]) none (.struct [.time leapDay]) :=
  C82_accepts goTimes (Γ := Γ1) (m := 0) (fd := stamp) (show Γ1.decl 0 = _ from rfl) ⟨_, 5, _, rfl, rfl⟩ (by decide) (by decide) rfl rfl
    ⟨_, rfl, by decide, by simp⟩ rfl leapDay_names _

/-! ### C83 -/

theorem decl_small {n : Nat} {d : Decl} (hn : n < 2) (hd : Γ.decl n = some d) : d = .struct false event ∨ d = .struct false visit := by
  match n with
  | 0 => cases hd; exact .inl rfl
  | 1 => cases hd; exact .inr rfl

theorem types_small {n : Nat} {d : Decl} {t : TExpr} (hn : n < 2) (hd : Γ.decl n = some d) (ht : t ∈ d.types) : t = .time ∨ t = .star .time := by
  rcases decl_small hn hd with rfl | rfl
  · exact .inl (by simpa [Decl.types, event] using ht)
  · simpa [Decl.types, visit] using ht

theorem field_small {n : Nat} {strict : Bool} {fields : List FieldDecl} {fd : FieldDecl} (hn : n < 2)
    (hd : Γ.decl n = some (.struct strict fields)) (hf : fd ∈ fields) : fd ∈ event ++ visit := by
  rcases decl_small hn hd with h | h <;> cases h <;> simp [hf]

theorem event_package : Package Γ NoForeign (· < 2) where
  closed n d t m hn hd ht hm := by rcases types_small hn hd ht with rfl | rfl <;> cases hm
  decoders n hn _ := by
    match n with
    | 0 => exact ⟨_, 5, _, rfl, rfl⟩
    | 1 => exact ⟨_, 5, _, rfl, rfl⟩
  noAnon n d t hn hd ht := by rcases types_small hn hd ht with rfl | rfl <;> rfl
  acyclic := ⟨fun n => n, fun n d m hn hd hm => by rcases decl_small hn hd with rfl | rfl <;> cases hm⟩
  foreignZero n hn hd := by
    match n with
    | 0 => cases hd
    | 1 => cases hd
  foreignConv n v hn hd hx := hx.elim
  foreignFill n v s hn hd hx := hx.elim

theorem dotted_layout : chunks (str "02.01.2006") = some [.day, .lit '.', .month, .lit '.', .year] := by decide +kernel

theorem event_enc : EncPackage Γ noDoc (· < 2) where
  closed n d t m hn hd ht hm := by rcases types_small hn hd ht with rfl | rfl <;> cases hm
  noAnon n d t hn hd ht := by rcases types_small hn hd ht with rfl | rfl <;> rfl
  sels n d t m hn hd ht hm := by rcases types_small hn hd ht with rfl | rfl <;> cases hm
  keys n strict fields fd hn hd hf := by
    have h : ∀ fd ∈ event ++ visit, plainb fd.tags.jsonName = true := by decide
    exact plainb_iff (h fd (field_small hn hd hf))
  times t := (C83_plain goTimes t).1
  timeTexts t s h := (C83_plain goTimes t).2.2 s h
  layouts n strict fields fd hn hd hf := by
    have h : ∀ fd ∈ event ++ visit, fd.tags.layout = [] ∨ fd.tags.layout = str "02.01.2006" := by decide
    rcases h fd (field_small hn hd hf) with h | h <;> rw [h]
    · exact ⟨fun t => (C83_plain goTimes t).1, (C83_plain goTimes _).2.1⟩
    · have h : ∀ t, PlainText (Ext.fmtTime (str "02.01.2006") t) := fun t => by
        rw [goTimes.format t dotted_layout]; exact plain_format _ (by simp) t
      exact ⟨h, h _⟩
  foreign n r w w' hn hd hw h := by cases h
  tame n r hd := .unsupp

theorem event_writers : Writers Γ noDoc (· < 2) :=
  { event_enc with
    floatTexts := ⟨(@FloatTexts.finite Sample.ext Examples.floatTexts :), (@FloatTexts.nonfinite Sample.ext Examples.floatTexts :)⟩
    oneDoc := noDoc_unique
    compact := by intro n r w s _ hd _ hr; cases hr }

theorem event_trip : TripPackage Γ NoForeign noDoc (· < 2) where
  named n strict fields fd hn hd hf := by
    have h : ∀ fd ∈ event ++ visit, fd.tags.jsonName ≠ str "-" ∧ fd.tags.jsonName ≠ [] := by decide
    obtain ⟨h1, h2⟩ := h fd (field_small hn hd hf)
    exact ⟨h1, fun h => absurd h h2⟩
  distinct n strict fields i j fd fd' key hn hd hi hj hk hk' := by
    have key' : ∀ {fields : List FieldDecl}, (∀ fd ∈ fields, fd ∈ event ++ visit) → (fields.map fun fd => fd.tags.jsonName).Nodup →
        ∀ {i j : Nat} {fd fd' : FieldDecl}, fields[i]? = some fd → fields[j]? = some fd' → FieldName Γ fd key → FieldName Γ fd' key → i = j := by
      intro fields hs hnd i j fd fd' hi hj hk hk'
      have hne : ∀ fd ∈ event ++ visit, fd.tags.jsonName ≠ [] := by decide
      have name : ∀ {fd}, fd ∈ event ++ visit → FieldName Γ fd key → key = fd.tags.jsonName := by
        intro fd hm h
        rcases h with ⟨_, h⟩ | ⟨h, _⟩
        · exact h
        · exact absurd h (hne fd hm)
      have h1 := name (hs fd (List.mem_of_getElem? hi)) hk
      have h2 := name (hs fd' (List.mem_of_getElem? hj)) hk'
      have hi' : (fields.map fun fd => fd.tags.jsonName)[i]? = some key := by rw [List.getElem?_map, hi, h1]; rfl
      have hj' : (fields.map fun fd => fd.tags.jsonName)[j]? = some key := by rw [List.getElem?_map, hj, h2]; rfl
      exact (List.getElem?_inj (List.getElem?_eq_some_iff.1 hi').1 hnd).1 (hi'.trans hj'.symm)
    refine key' (fun fd hf => field_small hn hd hf) ?_ hi hj hk hk'
    rcases decl_small hn hd with h | h <;> cases h <;> decide
  strict n fields fd hn hd hf := by rcases decl_small hn hd with h | h <;> cases h
  always n strict fields fd hn hd hf h := by
    have h' : ∀ fd ∈ event ++ visit, fd.tags.dflt = [] ∧ fd.tags.required = false := by decide
    obtain ⟨h1, h2⟩ := h' fd (field_small hn hd hf)
    rcases h with h | h
    · exact absurd h1 h
    · rw [h2] at h; cases h
  zeroText := by decide
  foreign n v jv hn hd hx := hx.elim
  foreignConv n v hn hd hx := hx.elim
  foreignZero n z hn hd := by
    match n with
    | 0 => cases hd
    | 1 => cases hd
  foreignNil n jv hn hd h := h.elim
  foreignSome n v jv hn hd hx := hx.elim

/-- the same day on both, and what is written for it -/
def eventVal : GoVal := .struct [.time leapDay, .time leapDay]
def eventText : Str := str "{\"at\":\"2024-02-29T12:30:45.67+03:00\",\"on\":\"29.02.2024\"}"

theorem event_marshals : Marshals Γ 0 (some eventVal) (.ok eventText) := ⟨5, by decide +kernel⟩

theorem event_typed : HasType Γ NoForeign (.named 0) eventVal :=
  typed_struct (n := 0) (strict := false) (fields := event) rfl (.cons (.time _) (.cons (.time _) .nil))

theorem leapDay_on : OnDate leapDay ⟨2024, 2, 29⟩ := dateOf_iff.1 (by decide +kernel)

theorem leapDay_showable : Showable leapDay :=
  ⟨fun d h => by rw [onDate_unique h leapDay_on]; decide, by decide, by decide⟩

theorem event_parts {t : TExpr} {v : GoVal} (h : Part Γ (.named 0) eventVal t v) :
    (t, v) ∈ [(TExpr.named 0, eventVal), (.time, .time leapDay)] := by
  refine part_mem (by simp) ?_ h
  intro p hp
  simp only [List.mem_cons, List.not_mem_nil, or_false] at hp
  rcases hp with rfl | rfl <;> simp [partStep, Γ, eventVal, event]

theorem event_fine : Fine Γ noDoc (.named 0) eventVal where
  floats p f h := by simpa [eventVal] using event_parts h.toPart
  commas e n strict fields gs h he hd := by
    have := event_parts h.toPart
    simp only [eventVal, List.mem_cons, List.not_mem_nil, or_false, Prod.mk.injEq, reduceCtorEq, and_false, GoVal.struct.injEq] at this
    obtain ⟨rfl, rfl⟩ := this
    cases he; cases hd
    refine fun _ _ _ _ _ _ hij _ _ _ _ _ _ => ⟨0, _, _, by omega, rfl, rfl, not_omitted .time fun _ => ⟨rfl, by simp⟩, ?_⟩
    rintro ⟨_, k, hk, _, hs⟩
    cases fieldKind_unique hk (.time : FieldKind Γ .time .time)
    simp at hs
  splices e n strict fields gs h he hd := by
    have := event_parts h.toPart
    simp only [eventVal, List.mem_cons, List.not_mem_nil, or_false, Prod.mk.injEq, reduceCtorEq, and_false, GoVal.struct.injEq] at this
    obtain ⟨rfl, rfl⟩ := this
    cases he; cases hd
    intro i m fd g jv hf hg hn
    match i with
    | 0 | 1 => cases hf; cases hn
    | i + 2 => cases hf

theorem event_json : ∃ jv, Document jv eventText ∧ DepthLe 300 jv := by
  obtain ⟨jv, h, _⟩ := C21_output_is_json_partial event_enc noDoc_unique (by decide) event_typed event_fine event_marshals
  exact ⟨jv, document_text h, (json_depth h).mono (by decide +kernel)⟩

/-- C83 and C84 in the sample: the first field comes back as it was, the second as the midnight
(UTC) of its day -/
example {zs gs' : List GoVal} {z new : GoVal} (hz : zs[0]? = some z) (hnew : gs'[0]? = some new)
    (hu : Unmarshals Γ 0 eventText (.struct zs) none (.struct gs')) : new = .time leapDay := by
  obtain ⟨jv, hj, hdep⟩ := event_json
  exact C83_field_partial goTimes event_package event_writers event_trip (n := 0) (by decide) rfl event_typed event_marshals hj hdep (i := 0) rfl rfl rfl rfl
    (by decide +kernel) leapDay_showable (by decide) hz hnew hu

theorem apart_dotted : Apart [.day, .lit '.', .month, .lit '.', .year] := by
  intro i a b ha hb
  match i with
  | 0 | 1 | 2 | 3 => cases ha; cases hb; rintro ⟨⟩
  | 4 => cases hb
  | i + 5 => cases ha

example {zs gs' : List GoVal} {z new : GoVal} (hz : zs[1]? = some z) (hnew : gs'[1]? = some new)
    (hu : Unmarshals Γ 0 eventText (.struct zs) none (.struct gs')) : new = .time ⟨dayNumber 2024 2 29 * 86400000000000, 0⟩ := by
  obtain ⟨jv, hj, hdep⟩ := event_json
  obtain ⟨t', rfl, h⟩ := C84_field_partial goTimes event_package event_writers event_trip (n := 0) (by decide) rfl event_typed event_marshals hj hdep (i := 1)
    rfl rfl rfl (by decide +kernel) (by decide) (by decide) ⟨by decide, by decide, by decide, by decide⟩ dotted_layout apart_dotted
    ⟨fun _ => leapDay_showable.1, fun h => by simp at h⟩ hz hnew hu
  have h' := (parse_format apart_dotted ⟨fun _ => leapDay_showable.1, fun h => by simp at h⟩).2 h
  have : parse [.day, .lit '.', .month, .lit '.', .year] (format [.day, .lit '.', .month, .lit '.', .year] leapDay) =
      some ⟨dayNumber 2024 2 29 * 86400000000000, 0⟩ := by decide +kernel
  rw [this] at h'
  cases h'; rfl

/-- a whole value, with a pointer to the zero time -/
def visitVal : GoVal := .struct [.time leapDay, .ptr (.time .zero)]
def visitText : Str := str "{\"in\":\"2024-02-29T12:30:45.67+03:00\",\"out\":\"0001-01-01T00:00:00Z\"}"

theorem visit_marshals : Marshals Γ 1 (some visitVal) (.ok visitText) := ⟨5, by decide +kernel⟩

theorem visit_typed : HasType Γ NoForeign (.named 1) visitVal :=
  typed_struct (n := 1) (strict := false) (fields := visit) rfl (.cons (.time _) (.cons (.ptr (.time _)) .nil))

def visitParts : List (TExpr × GoVal) :=
  [(.named 1, visitVal), (.time, .time leapDay), (.star .time, .ptr (.time .zero)), (.time, .time .zero)]

theorem visit_closed : ∀ p ∈ visitParts, ∀ q ∈ partStep Γ p, q ∈ visitParts := by
  intro p hp
  simp only [visitParts, List.mem_cons, List.not_mem_nil, or_false] at hp
  rcases hp with rfl | rfl | rfl | rfl <;> simp [partStep, Γ, visitVal, visit, visitParts]

theorem visit_parts {t : TExpr} {v : GoVal} (h : Part Γ (.named 1) visitVal t v) : (t, v) ∈ visitParts :=
  part_mem (by simp [visitParts]) visit_closed h

theorem visit_fields {fd : FieldDecl} {g : GoVal} (h : FieldIn Γ (.named 1) visitVal fd g) : (fd, g) ∈ visit.zip [.time leapDay, .ptr (.time .zero)] := by
  have := fieldIn_mem (by simp [visitParts]) visit_closed h
  simpa [visitParts, fieldStep, Γ, visitVal, visit] using this

theorem zero_on : OnDate Time.zero ⟨1, 1, 1⟩ := dateOf_iff.1 (by decide +kernel)

theorem visit_times : TimesKept Γ (.named 1) visitVal where
  times t h := by
    have := visit_parts h
    simp only [visitParts, visitVal, List.mem_cons, List.not_mem_nil, or_false, Prod.mk.injEq, reduceCtorEq, and_false,
      GoVal.time.injEq, true_and, false_or] at this
    rcases this with rfl | rfl
    · exact ⟨leapDay_showable, by decide, by decide +kernel⟩
    · exact ⟨⟨fun d h => by rw [onDate_unique h zero_on]; decide, by decide, by decide⟩, by decide, fun _ => rfl⟩
  layouts fd g h _ := by
    have := visit_fields h
    simp only [visit, List.zip_cons_cons, List.zip_nil_right, List.mem_cons, List.not_mem_nil, or_false, Prod.mk.injEq] at this
    rcases this with ⟨rfl, _⟩ | ⟨rfl, _⟩ <;> rfl

theorem visit_elements {t : TExpr} {x : GoVal} (h : ElementIn Γ (.named 1) visitVal t x) : False := by
  cases h with
  | slice h _ => simpa [visitParts, visitVal] using visit_parts h
  | array h _ => simpa [visitParts, visitVal] using visit_parts h
  | map h _ => simpa [visitParts, visitVal] using visit_parts h

theorem visit_else : LosslessElse Γ (.named 1) visitVal where
  floats p f h := by simpa [visitParts, visitVal] using visit_parts h
  omits fd g h ho := by
    have := visit_fields h
    obtain ⟨k, hk, hv, ho⟩ := ho
    simp only [visit, List.zip_cons_cons, List.zip_nil_right, List.mem_cons, List.not_mem_nil, or_false, Prod.mk.injEq] at this
    rcases this with ⟨rfl, rfl⟩ | ⟨rfl, rfl⟩
    · rcases ho with ho | ⟨_, ho⟩ <;> cases ho
    · cases fieldKind_unique hk (.timePtr (.self _)); cases hv
  nilTimes fd h ht := by simpa [visit] using visit_fields h
  nilFields fd h := by simpa [visit] using visit_fields h
  nilElements t h := (visit_elements h).elim
  nilTop n u h hv hd := by cases hv
  nilEmpty y n strict h hy := (visit_elements h).elim
  nilPtrs t h := by simpa [visitParts, visitVal] using visit_parts h

theorem visit_fine : Fine Γ noDoc (.named 1) visitVal where
  floats p f h := by simpa [visitParts, visitVal] using visit_parts h.toPart
  commas e n strict fields gs h he hd := by
    have := visit_parts h.toPart
    simp only [visitParts, visitVal, List.mem_cons, List.not_mem_nil, or_false, Prod.mk.injEq, reduceCtorEq, and_false, GoVal.struct.injEq] at this
    obtain ⟨rfl, rfl⟩ := this
    cases he; cases hd
    refine fun _ _ _ _ _ _ hij _ _ _ _ _ _ => ⟨0, _, _, by omega, rfl, rfl, not_omitted .time fun _ => ⟨rfl, by simp⟩, ?_⟩
    rintro ⟨_, k, hk, _, hs⟩
    cases fieldKind_unique hk (.time : FieldKind Γ .time .time)
    simp at hs
  splices e n strict fields gs h he hd := by
    have := visit_parts h.toPart
    simp only [visitParts, visitVal, List.mem_cons, List.not_mem_nil, or_false, Prod.mk.injEq, reduceCtorEq, and_false, GoVal.struct.injEq] at this
    obtain ⟨rfl, rfl⟩ := this
    cases he; cases hd
    intro i m fd g jv hf hg hn
    match i with
    | 0 | 1 => cases hf; cases hn
    | i + 2 => cases hf

theorem visit_zero : ZeroIs Γ 1 (.struct [.time .zero, .nil]) := ⟨5, rfl⟩

example {e : Option Err} {v' : GoVal} : Unmarshals Γ 1 visitText (.struct [.time .zero, .nil]) e v' ↔ e = none ∧ v' = visitVal := by
  obtain ⟨jv, h, _⟩ := C21_output_is_json_partial event_enc noDoc_unique (by decide) visit_typed visit_fine visit_marshals
  exact C83_value_partial goTimes event_package event_writers event_trip (by decide) visit_typed visit_times visit_else visit_marshals
    (document_text h) ((json_depth h).mono (by decide +kernel)) visit_zero

/-! ### times that do not come back -/

/-- noon of 1 July 1937 in Amsterdam, whose clocks were 19 minutes and 32 seconds ahead -/
def amsterdam : Time := ⟨dayNumber 1937 7 1 * 86400000000000 + (12 * 3600 - 1172) * 1000000000, 1172⟩

theorem amsterdam_on : OnDate amsterdam ⟨1937, 7, 1⟩ := dateOf_iff.1 (by decide +kernel)

/-- **C83, counterexample.** It comes back 32 seconds later. -/
theorem C83_seconds_lost {t' : Time} (h : ReadsTime [] (Ext.fmtTime (str "2006-01-02T15:04:05.999999999Z07:00") amsterdam) t') :
    t'.ns = amsterdam.ns + 32000000000 ∧ t'.off = 1140 := by
  obtain ⟨h1, h2⟩ := (C83_shifted goTimes ⟨fun d h => by rw [onDate_unique h amsterdam_on]; decide, by decide, by decide⟩).1 h
  have e : amsterdam.off.tdiv 60 * 60 = 1140 := by decide
  rw [e] at h1
  refine ⟨?_, h1⟩
  rw [h2, h1]
  rfl

/-- the first day of the year 10000 -/
def tenThousand : Time := ⟨dayNumber 10000 1 1 * 86400000000000, 0⟩

/-- **C83, counterexample.** A year of five digits is written, and not read. -/
theorem C83_years_lost : Marshals Γ1 0 (some (.struct [.time tenThousand])) (.ok (str "{\"at\":\"10000-01-01T00:00:00Z\"}")) ∧
    ∀ t', ¬ ReadsTime [] (str "10000-01-01T00:00:00Z") t' := by
  refine ⟨⟨5, by decide +kernel⟩, fun t' h => ?_⟩
  have h' := C42_default_layouts.1 h
  have h1 : Ext.parseTime (str "2006-01-02T15:04:05.999999999Z07:00") (str "10000-01-01T00:00:00Z") = none := by decide +kernel
  have h2 : Ext.parseTime (str "2006-01-02T15:04:05Z07:00") (str "10000-01-01T00:00:00Z") = none := by decide +kernel
  have h3 : Ext.parseTime (str "2006-01-02 15:04:05Z07:00") (str "10000-01-01T00:00:00Z") = none := by decide +kernel
  have h4 : Ext.parseTime (str "02.01.2006 15:04:05Z07:00") (str "10000-01-01T00:00:00Z") = none := by decide +kernel
  rcases h' with h' | ⟨_, h' | ⟨_, h' | ⟨_, h'⟩⟩⟩
  · rw [h1] at h'; cases h'
  · rw [h2] at h'; cases h'
  · rw [h3] at h'; cases h'
  · rw [h4] at h'; cases h'

/-! ### C84 -/

/-- **C84, counterexample.** In the layout `05.04` the minutes are taken for a fraction of the
second: what is written is not read. -/
theorem C84_swallowed : chunks (str "05.04") = some [.second, .lit '.', .minute] ∧ Ext.fmtTime (str "05.04") leapDay = str "45.30" ∧
    ∀ t', ¬ ReadsTime (str "05.04") (str "45.30") t' := by
  refine ⟨by decide +kernel, by decide +kernel, fun t' h => ?_⟩
  have hq : QuotesPlainly (str "05.04") := ⟨by decide, by decide, by decide, by decide⟩
  have hp : Ext.parseTime (str "05.04") (str "45.30") = none := by decide +kernel
  generalize hL : str "05.04" = L at h
  cases h with
  | default => cases hL
  | const => simp [str] at hL
  | literal _ _ hq' h =>
    subst hL
    rw [readAsSource_unique hq' (readAsSource_plain hq), hp] at h
    cases h

end VJ.Examples.Times
