import Verif.Proof.TimeLayout
import Verif.Props.IfJson
import Verif.Props.Text
import Verif.Proof.Plain

/-!
# C82, C83, C84: the texts of times

With Go's `time.Parse` and `Time.AppendFormat` (`GoTimes`, Model/TimeText) in place of the
parameters of the rest of the model.
-/

namespace VJ
set_option linter.unusedSectionVars false
open TimeText

section
variable [Ext]

theorem chunks_nano : chunks (str "2006-01-02T15:04:05.999999999Z07:00") = some nanoChunks := by decide +kernel
theorem chunks_rfc : chunks (str "2006-01-02T15:04:05Z07:00") = some
    [.year, .lit '-', .month, .lit '-', .day, .lit 'T', .hour, .lit ':', .minute, .lit ':', .second, .zone] := by decide +kernel
theorem chunks_spaced : chunks (str "2006-01-02 15:04:05Z07:00") = some
    [.year, .lit '-', .month, .lit '-', .day, .lit ' ', .hour, .lit ':', .minute, .lit ':', .second, .zone] := by decide +kernel
theorem chunks_dotted : chunks (str "02.01.2006 15:04:05Z07:00") = some
    [.day, .lit '.', .month, .lit '.', .year, .lit ' ', .hour, .lit ':', .minute, .lit ':', .second, .zone] := by decide +kernel

namespace TimeText

/-- a layout without a fraction reads what the layout with one reads -/
theorem parse_second_frac (pre : List Chunk) (l : List Chunk) (hl : nextStd l ≠ some .frac) : ∀ (s : Str) (f : Fields),
    parseLoop (pre ++ .second :: l) s f = parseLoop (pre ++ .second :: .frac :: l) s f := by
  induction pre with
  | nil => intro s f; exact second_frac hl s
  | cons c pre ih =>
    intro s f
    simp only [List.cons_append]
    cases c with
    | lit c =>
      simp only [parseLoop]
      split
      · split
        · exact ih _ _
        · split
          · exact ih _ _
          · rfl
      · split
        · rfl
        · split
          · exact ih _ _
          · rfl
    | year =>
      match s with
      | [] => rfl
      | [_] => rfl
      | [_, _] => rfl
      | [_, _, _] => rfl
      | a :: b :: c :: d :: s => simp only [parseLoop]; split; exacts [ih _ _, rfl]
    | month => simp only [parseLoop]; split; · split; exacts [rfl, ih _ _]
               · rfl
    | day => simp only [parseLoop]; split; exacts [ih _ _, rfl]
    | hour => simp only [parseLoop]; split; · split; exacts [rfl, ih _ _]
              · rfl
    | minute => simp only [parseLoop]; split; · split; exacts [rfl, ih _ _]
                · rfl
    | second =>
      rw [parseLoop, parseLoop]
      have hh : nextStd (pre ++ Chunk.second :: l) = nextStd (pre ++ Chunk.second :: Chunk.frac :: l) := by
        clear ih
        induction pre with
        | nil => rfl
        | cons c pre ih => cases c <;> simp [nextStd, ih]
      rw [hh]
      simp only [ih]
    | frac => rw [parseLoop, parseLoop]; simp only [ih]
    | zone => rw [parseLoop, parseLoop]; simp only [ih]

theorem iso_rfc (s : Str) : parse [.year, .lit '-', .month, .lit '-', .day, .lit 'T', .hour, .lit ':', .minute, .lit ':', .second, .zone] s =
    parse nanoChunks s :=
  congrArg (fun x => Option.bind x finish)
    (parse_second_frac [.year, .lit '-', .month, .lit '-', .day, .lit 'T', .hour, .lit ':', .minute, .lit ':'] [.zone] (by simp [nextStd]) s {})

theorem spaced_frac (s : Str) :
    parse [.year, .lit '-', .month, .lit '-', .day, .lit ' ', .hour, .lit ':', .minute, .lit ':', .second, .zone] s =
    parse [.year, .lit '-', .month, .lit '-', .day, .lit ' ', .hour, .lit ':', .minute, .lit ':', .second, .frac, .zone] s :=
  congrArg (fun x => Option.bind x finish)
    (parse_second_frac [.year, .lit '-', .month, .lit '-', .day, .lit ' ', .hour, .lit ':', .minute, .lit ':'] [.zone] (by simp [nextStd]) s {})

theorem dotted_frac (s : Str) :
    parse [.day, .lit '.', .month, .lit '.', .year, .lit ' ', .hour, .lit ':', .minute, .lit ':', .second, .zone] s =
    parse [.day, .lit '.', .month, .lit '.', .year, .lit ' ', .hour, .lit ':', .minute, .lit ':', .second, .frac, .zone] s :=
  congrArg (fun x => Option.bind x finish)
    (parse_second_frac [.day, .lit '.', .month, .lit '.', .year, .lit ' ', .hour, .lit ':', .minute, .lit ':'] [.zone] (by simp [nextStd]) s {})

theorem iso_char {s : Str} {t : Time} (h : NamesBy IsoDate s t) : s[10]? = some 'T' ∧ ∃ c, s[2]? = some c ∧ isDigit c = true := by
  cases h with
  | mk hd hr hday hc hf hz =>
    cases hd with
    | mk ha hb hc' =>
      obtain ⟨a1, a2, a3, a4, rfl, h1, h2, h3, h4, _⟩ := wide4_iff.1 ha
      obtain ⟨b1, b2, rfl, _⟩ := wide2_iff.1 hb
      obtain ⟨c1, c2, rfl, _⟩ := wide2_iff.1 hc'
      exact ⟨rfl, a3, rfl, h3⟩

theorem spaced_char {s : Str} {t : Time} (h : NamesBy SpacedDate s t) : s[10]? = some ' ' ∧ ∃ c, s[2]? = some c ∧ isDigit c = true := by
  cases h with
  | mk hd hr hday hc hf hz =>
    cases hd with
    | mk ha hb hc' =>
      obtain ⟨a1, a2, a3, a4, rfl, h1, h2, h3, h4, _⟩ := wide4_iff.1 ha
      obtain ⟨b1, b2, rfl, _⟩ := wide2_iff.1 hb
      obtain ⟨c1, c2, rfl, _⟩ := wide2_iff.1 hc'
      exact ⟨rfl, a3, rfl, h3⟩

theorem dotted_char {s : Str} {t : Time} (h : NamesBy DottedDate s t) : s[2]? = some '.' := by
  cases h with
  | mk hd hr hday hc hf hz =>
    cases hd with
    | mk ha hb hc' =>
      obtain ⟨a1, a2, a3, a4, rfl, h1, h2, h3, h4, _⟩ := wide4_iff.1 ha
      obtain ⟨b1, b2, rfl, _⟩ := wide2_iff.1 hb
      obtain ⟨c1, c2, rfl, _⟩ := wide2_iff.1 hc'
      rfl

end TimeText

/-! ## C82: the texts a time field accepts -/

/-- **C82.** Without a layout tag a text reads as the time `t` if and only if it is made of a
date of the calendar, a clock, perhaps a fraction, and a zone, in one of the forms of `Names`,
and `t` is the instant they name. -/
theorem C82_reads (hG : GoTimes) {s : Str} {t : Time} : ReadsTime [] s t ↔ Names s t := by
  rw [C42_default_layouts, names_iff]
  rw [hG.parse s chunks_nano, hG.parse s chunks_rfc, hG.parse s chunks_spaced, hG.parse s chunks_dotted, iso_rfc, spaced_frac, dotted_frac]
  have hi : ∀ t, parse nanoChunks s = some t ↔ NamesBy IsoDate s t := fun t => parse_iso
  constructor
  · rintro (h | ⟨_, h | ⟨_, h | ⟨_, h⟩⟩⟩)
    · exact .inl ((hi t).1 h)
    · exact .inl ((hi t).1 h)
    · exact .inr (.inl (parse_spaced.1 h))
    · exact .inr (.inr (parse_dotted.1 h))
  · have dig : ¬ isDigit '.' = true := by decide
    rintro (h | h | h)
    · exact .inl ((hi t).2 h)
    · have h1 : parse nanoChunks s = none := by
        cases hp : parse nanoChunks s with
        | none => rfl
        | some t' => have := ((iso_char ((hi t').1 hp)).1).symm.trans (spaced_char h).1; simp at this
      exact .inr ⟨h1, .inr ⟨h1, .inl (parse_spaced.2 h)⟩⟩
    · have h1 : parse nanoChunks s = none := by
        cases hp : parse nanoChunks s with
        | none => rfl
        | some t' =>
          obtain ⟨c, hc, hc'⟩ := (iso_char ((hi t').1 hp)).2
          have := hc.symm.trans (dotted_char h)
          cases this; exact absurd hc' dig
      have h2 : parse [.year, .lit '-', .month, .lit '-', .day, .lit ' ', .hour, .lit ':', .minute, .lit ':', .second, .frac, .zone] s = none := by
        cases hp : parse [.year, .lit '-', .month, .lit '-', .day, .lit ' ', .hour, .lit ':', .minute, .lit ':', .second, .frac, .zone] s with
        | none => rfl
        | some t' =>
          obtain ⟨c, hc, hc'⟩ := (spaced_char (parse_spaced.1 hp)).2
          have := hc.symm.trans (dotted_char h)
          cases this; exact absurd hc' dig
      exact .inr ⟨h1, .inr ⟨h1, .inr ⟨h2, parse_dotted.2 h⟩⟩⟩

/-- **C82, in a struct**: every such text is taken, … -/
theorem C82_accepts (hG : GoTimes) {Γ : Env} {m : Nat} {doc : JV} {fd : FieldDecl} {s : Str} {t : Time}
    (hd : SingleField Γ m fd) (hdec : HasDecoder Γ m) (hn : fd.tags.jsonName ≠ str "-") (hn' : fd.tags.jsonName ≠ [])
    (ht : fd.typ = .time) (hl : fd.tags.layout = []) (hacc : Acceptable [fd.tags.jsonName] false doc)
    (hw : doc.get fd.tags.jsonName = some (.str s)) (hr : Names s t) (old : GoVal) :
    Fills Γ m doc (.struct [old]) none (.struct [.time t]) :=
  C42_accepts hd hdec hn hn' ht hacc hw (hl ▸ (C82_reads hG).2 hr) old

/-- … and what a time field holds after a successful decode is what the member's text names. -/
theorem C82_holds (hG : GoTimes) {Γ : Env} {n : Nat} {doc w : JV} {fd : FieldDecl} {old new : GoVal}
    (h : FieldAfter Γ n doc fd old new) (hn : fd.tags.jsonName ≠ str "-") (hn' : fd.tags.jsonName ≠ [])
    (ht : Is Γ (pointee fd.typ) .time) (hl : fd.tags.layout = []) (hw : doc.get fd.tags.jsonName = some w)
    (hnn : (∃ u, fd.typ = .star u) → w ≠ .null) :
    ∃ s t, w = .str s ∧ Holds fd.typ new (.time t) ∧ Names s t := by
  obtain ⟨s, t, h1, h2, h3⟩ := C42_read h hn hn' ht hw hnn
  exact ⟨s, t, h1, h2, (C82_reads hG).1 (hl ▸ h3)⟩

/-! ## C83: times come back -/

theorem apart_nano : Apart nanoChunks := by
  intro i a b ha hb
  match i with
  | 0 | 1 | 2 | 3 | 4 | 5 | 6 | 7 | 8 | 9 | 10 | 11 => cases ha; cases hb; rintro ⟨⟩ <;> simp_all
  | 12 => cases hb
  | i + 13 => cases ha

theorem all_nano : ∀ c : Chunk, (∀ x, c ≠ .lit x) → c ∈ nanoChunks := by
  intro c hc
  cases c with
  | lit x => exact absurd rfl (hc x)
  | _ => simp [nanoChunks]

theorem reads_back (hG : GoTimes) {t : Time} (ht : Showable t) {t' : Time} :
    ReadsTime [] (Ext.fmtTime (str "2006-01-02T15:04:05.999999999Z07:00") t) t' ↔
      t' = ⟨t.ns + (t.off - t.off.tdiv 60 * 60) * 1000000000, t.off.tdiv 60 * 60⟩ := by
  rw [← shows_all all_nano, ← parse_format apart_nano ⟨fun _ => ht.1, fun _ => ht.2⟩, C82_reads hG, hG.format t chunks_nano, names_iff]
  constructor
  · intro h
    obtain ⟨t'', h''⟩ := shows_exists nanoChunks t
    have hp := (parse_format apart_nano ⟨fun _ => ht.1, fun _ => ht.2⟩).2 h''
    have hp' := C42_default_layouts.1 ((C82_reads hG).2 (names_iff.2 h))
    rw [hG.parse _ chunks_nano, hp] at hp'
    rcases hp' with hp' | ⟨hp', _⟩
    · rw [hp]; exact hp'
    · cases hp'
  · exact fun h => .inl (parse_iso.1 h)

/-- **C83.** A time whose year has four digits and whose offset is in whole minutes is read back
as it was: the same instant, to the nanosecond, and the same offset. -/
theorem C83_same_partial (hG : GoTimes) {t : Time} (ht : Showable t) (hm : 60 ∣ t.off) {t' : Time} :
    ReadsTime [] (Ext.fmtTime (str "2006-01-02T15:04:05.999999999Z07:00") t) t' ↔ t' = t := by
  rw [reads_back hG ht]
  have : t.off.tdiv 60 * 60 = t.off := Int.tdiv_mul_cancel hm
  rw [this]
  simp

/-- **C83, seconds of the offset** are not written: a time with such an offset comes back as
another instant, later or earlier by just these seconds. -/
theorem C83_shifted (hG : GoTimes) {t : Time} (ht : Showable t) {t' : Time} :
    ReadsTime [] (Ext.fmtTime (str "2006-01-02T15:04:05.999999999Z07:00") t) t' ↔
      t'.off = t.off.tdiv 60 * 60 ∧ t'.ns = t.ns + (t.off - t'.off) * 1000000000 := by
  rw [reads_back hG ht]
  constructor
  · rintro rfl; exact ⟨rfl, rfl⟩
  · obtain ⟨a, b⟩ := t'
    rintro ⟨h1, h2⟩
    dsimp only at h1 h2
    subst h1 h2; rfl

/-- **C83, in a struct**: what was encoded for a time field without a layout tag is decoded as
the same time. -/
theorem C83_field_partial (hG : GoTimes) {Γ : Env} {X : Nat → GoVal → Prop} {S : Nat → Prop} {F : Nat → Option GoVal → JV → Prop}
    (hP : Package Γ X S) (hW : Writers Γ F S) (hR : TripPackage Γ X F S)
    {n : Nat} (hn : S n) {strict : Bool} {fields : List FieldDecl} (hd : Γ.decl n = some (.struct strict fields)) {gs : List GoVal}
    (hv : HasType Γ X (.named n) (.struct gs)) {s : Str} (h : Marshals Γ n (some (.struct gs)) (.ok s)) {doc : JV} (hj : Document doc s)
    (hdep : DepthLe 300 doc) {i : Nat} {fd : FieldDecl} {t : Time}
    (hi : fields[i]? = some fd) (hg : gs[i]? = some (.time t)) (ht : fd.typ = .time) (hl : fd.tags.layout = []) (ht0 : t.isZero = false)
    (hw : Showable t) (hm : 60 ∣ t.off)
    {zs gs' : List GoVal} {z new : GoVal} (hz : zs[i]? = some z) (hnew : gs'[i]? = some new)
    (hu : Unmarshals Γ n s (.struct zs) none (.struct gs')) : new = .time t := by
  obtain ⟨t', rfl, h'⟩ := C42_round_trip hP hW hR hn hd hv h hj hdep hi hg ht ht0 hz hnew hu
  rw [hl, if_pos rfl, C83_same_partial hG hw hm] at h'
  rw [h']

/-- what the round trip of whole values (C31) asks of the times in it -/
theorem C83_lossless (hG : GoTimes) {t : Time} (hw : Showable t) (hm : 60 ∣ t.off) :
    (Ext.parseTime layoutNano (Ext.fmtTime layoutNano t) = some t ∧ ∀ s, Ext.timeText t = some s → ReadsTime [] s t) ∧
    ReadsTime [] (Ext.fmtTime (writeLayout []) t) t ∧ (t = .zero → ReadsTime [] (Ext.fmtTime (zeroLayout []) t) t) := by
  have h1 : ReadsTime [] (Ext.fmtTime layoutNano t) t := (C83_same_partial hG hw hm).2 rfl
  have h2 : Ext.parseTime layoutNano (Ext.fmtTime layoutNano t) = some t := by
    rw [show layoutNano = str "2006-01-02T15:04:05.999999999Z07:00" from rfl, hG.parse _ chunks_nano, hG.format t chunks_nano,
      parse_format apart_nano ⟨fun _ => hw.1, fun _ => hw.2⟩, shows_all all_nano, Int.tdiv_mul_cancel hm]
    simp
  refine ⟨⟨h2, fun s hs => ?_⟩, h1, ?_⟩
  · rw [hG.text] at hs
    have : s = Ext.fmtTime layoutNano t := by
      rw [show layoutNano = str "2006-01-02T15:04:05.999999999Z07:00" from rfl, hG.format t chunks_nano]
      unfold marshalText at hs
      dsimp only at hs
      split at hs
      · cases hs
      · split at hs
        · cases hs; rfl
        · split at hs
          · cases hs
          · cases hs; rfl
    rw [this]; exact h1
  · rintro rfl
    rw [show zeroLayout [] = str "2006-01-02T15:04:05Z07:00" from rfl, hG.format _ chunks_rfc]
    have : format [.year, .lit '-', .month, .lit '-', .day, .lit 'T', .hour, .lit ':', .minute, .lit ':', .second, .zone] Time.zero =
        format nanoChunks Time.zero := by decide +kernel
    rw [this, ← hG.format _ chunks_nano]
    exact h1

/-- the times in a value: years of four digits, offsets in whole minutes, and the zero instant
in UTC; no field has a layout tag -/
structure TimesKept (Γ : Env) (T : TExpr) (V : GoVal) : Prop where
  times : ∀ t, Part Γ T V .time (.time t) → Showable t ∧ 60 ∣ t.off ∧ (t.isZero = true → t = .zero)
  layouts : ∀ fd g, FieldIn Γ T V fd g → pointee fd.typ = .time → fd.tags.layout = []

theorem lossless_times (hG : GoTimes) {Γ : Env} {X : Nat → GoVal → Prop} {T : TExpr} {V : GoVal} (hV : HasType Γ X T V)
    (hT : TimesKept Γ T V) (hL : LosslessElse Γ T V) : Lossless Γ T V where
  toLosslessElse := hL
  times t h := (C83_lossless hG (hT.times t h).1 (hT.times t h).2.1).1
  timeFields fd t h ht := by
    have hp : Part Γ T V .time (.time t) ∧ fd.tags.layout = [] := by
      rcases h with h | h
      · refine ⟨?_, hT.layouts _ _ h ht⟩
        have hp := h.part
        have hty := part_typed hV hp
        generalize fd.typ = u at *
        cases u with
        | time => exact hp
        | star u => rcases hty.star_cases with h | ⟨w, h, _⟩ <;> cases h
        | _ => cases ht
      · refine ⟨?_, hT.layouts _ _ h ht⟩
        have hp := h.part
        have hty := part_typed hV hp
        generalize fd.typ = u at *
        cases u with
        | time => cases hty with
          | «alias» he => cases he
          | foreign he => cases he
        | star u => cases ht; exact hp.ptr
        | _ => cases ht
    obtain ⟨h1, h2, h3⟩ := hT.times t hp.1
    obtain ⟨_, h5, h6⟩ := C83_lossless hG h1 h2
    rw [hp.2]
    exact ⟨h5, fun hz => ⟨h3 hz, h6 (h3 hz)⟩⟩

/-- **C83, whole values**: a value with times in it comes back as C31 says, if its times are of
this kind. -/
theorem C83_value_partial (hG : GoTimes) {Γ : Env} {X : Nat → GoVal → Prop} {S : Nat → Prop} {F : Nat → Option GoVal → JV → Prop}
    (hP : Package Γ X S) (hW : Writers Γ F S) (hR : TripPackage Γ X F S) {n : Nat} (hn : S n) {v : GoVal}
    (hv : HasType Γ X (.named n) v) (hT : TimesKept Γ (.named n) v) (hl : LosslessElse Γ (.named n) v) {s : Str}
    (h : Marshals Γ n (some v) (.ok s)) {doc : JV} (hj : Document doc s) (hdep : DepthLe 300 doc) {z : GoVal} (hz : ZeroIs Γ n z)
    {e : Option Err} {v' : GoVal} : Unmarshals Γ n s z e v' ↔ e = none ∧ v' = v.trim :=
  C31_if_json_partial hP hW hR hn hv (lossless_times hG hv hT hl) h hj hdep hz

/-- times are written without quotes, backslashes and control characters -/
theorem C83_plain (hG : GoTimes) (t : Time) : PlainText (Ext.fmtTime layoutNano t) ∧
    PlainText (Ext.fmtTime (zeroLayout []) t) ∧ ∀ s, Ext.timeText t = some s → PlainText s := by
  have h1 : PlainText (format nanoChunks t) := plain_format _ (by simp [nanoChunks]) t
  refine ⟨?_, ?_, ?_⟩
  · rw [show layoutNano = str "2006-01-02T15:04:05.999999999Z07:00" from rfl, hG.format t chunks_nano]; exact h1
  · rw [show zeroLayout [] = str "2006-01-02T15:04:05Z07:00" from rfl, hG.format _ chunks_rfc]
    exact plain_format _ (by simp) t
  · intro s hs
    rw [hG.text] at hs
    unfold marshalText at hs
    dsimp only at hs
    split at hs
    · cases hs
    · split at hs
      · cases hs; exact h1
      · split at hs
        · cases hs
        · cases hs; exact h1

/-! ## C84: layouts -/

/-- **C84.** With a layout tag made of the elements of a date, a clock, a fraction and a zone,
what is written is read back as what the layout shows of the time. -/
theorem C84_shows_partial (hG : GoTimes) {L : Str} {l : List Chunk} (hL : L ≠ []) (hn : ¬ (str "time." <+: L ∧ '.' ∉ L.drop 5))
    (hq : QuotesPlainly L) (hc : chunks L = some l) (ha : Apart l) {t : Time} (hr : Room l t) {t' : Time} :
    ReadsTime L (Ext.fmtTime L t) t' ↔ Shows l t t' := by
  rw [← parse_format ha hr, hG.format t hc]
  constructor
  · intro h
    cases h with
    | default => exact absurd rfl hL
    | const hc' h =>
      refine absurd ⟨List.prefix_append _ _, ?_⟩ hn
      obtain ⟨p, hp, rfl, _⟩ := hc'
      have : ∀ p ∈ layoutConstants, '.' ∉ (str "time." ++ str p.1).drop 5 := by decide +kernel
      exact this p hp
    | literal _ _ hq' h =>
      rw [readAsSource_unique hq' (readAsSource_plain hq), hG.parse _ hc] at h
      exact h
  · intro h
    refine .literal hL hn (readAsSource_plain hq) ?_
    rw [hG.parse _ hc]; exact h

/-- **C84, once read it does not change any more**: what a layout shows of a time it shows in
full. -/
theorem C84_stable {l : List Chunk} {t t' : Time} (h : Shows l t t') : Shows l t' t' := by
  cases h with
  | @mk d day hd hday hour minute second nano off hh hm hs hn ho =>
    have hN : 0 ≤ nano ∧ nano < 1000000000 := by rw [hn]; split <;> omega
    have hS : 0 ≤ second ∧ second < 60 := by rw [hs]; split <;> omega
    have hM : 0 ≤ minute ∧ minute < 60 := by rw [hm]; split <;> omega
    have hH : 0 ≤ hour ∧ hour < 24 := by rw [hh]; split <;> omega
    have hwall : Time.wall ⟨(day * 86400 + hour * 3600 + minute * 60 + second - off) * 1000000000 + nano, off⟩ =
        (day * 86400 + hour * 3600 + minute * 60 + second) * 1000000000 + nano := by
      simp only [Time.wall]; omega
    refine .mk (d := ⟨if .year ∈ l then d.year else 0, if .month ∈ l then d.month else 1, if .day ∈ l then d.day else 1⟩) (day := day) ?_ ?_ ?_ ?_ ?_ ?_ ?_
    · unfold OnDate
      rw [hwall, show ((day * 86400 + hour * 3600 + minute * 60 + second) * 1000000000 + nano) / 86400000000000 = day from by omega]
      exact hday
    · have he : ∀ (p : Prop) [Decidable p] (a b : Int), (if p then (if p then a else b) else b) = if p then a else b := by
        intro p _ a b; by_cases h : p <;> simp [h]
      have he' : ∀ (p : Prop) [Decidable p] (a b : Nat), (if p then (if p then a else b) else b) = if p then a else b := by
        intro p _ a b; by_cases h : p <;> simp [h]
      simp only [he, he']
      exact hday
    · rw [hwall]
      split
      · omega
      · rw [hh]; simp only [*, if_false]
    · rw [hwall]
      split
      · omega
      · rw [hm]; simp only [*, if_false]
    · rw [hwall]
      split
      · omega
      · rw [hs]; simp only [*, if_false]
    · rw [hwall]
      split
      · omega
      · rw [hn]; simp only [*, if_false]
    · split
      · rw [ho]; simp only [*, if_true]; rw [Int.mul_tdiv_cancel _ (by omega)]
      · rw [ho]; simp only [*, if_false]

/-- **C84, in a struct.** -/
theorem C84_field_partial (hG : GoTimes) {Γ : Env} {X : Nat → GoVal → Prop} {S : Nat → Prop} {F : Nat → Option GoVal → JV → Prop}
    (hP : Package Γ X S) (hW : Writers Γ F S) (hR : TripPackage Γ X F S)
    {n : Nat} (hn : S n) {strict : Bool} {fields : List FieldDecl} (hd : Γ.decl n = some (.struct strict fields)) {gs : List GoVal}
    (hv : HasType Γ X (.named n) (.struct gs)) {s : Str} (h : Marshals Γ n (some (.struct gs)) (.ok s)) {doc : JV} (hj : Document doc s)
    (hdep : DepthLe 300 doc) {i : Nat} {fd : FieldDecl} {t : Time}
    (hi : fields[i]? = some fd) (hg : gs[i]? = some (.time t)) (ht : fd.typ = .time) (ht0 : t.isZero = false)
    {l : List Chunk} (hL : fd.tags.layout ≠ []) (hn' : ¬ (str "time." <+: fd.tags.layout ∧ '.' ∉ fd.tags.layout.drop 5))
    (hq : QuotesPlainly fd.tags.layout) (hc : chunks fd.tags.layout = some l) (ha : Apart l) (hr : Room l t)
    {zs gs' : List GoVal} {z new : GoVal} (hz : zs[i]? = some z) (hnew : gs'[i]? = some new)
    (hu : Unmarshals Γ n s (.struct zs) none (.struct gs')) : ∃ t', new = .time t' ∧ Shows l t t' := by
  obtain ⟨t', rfl, h'⟩ := C42_round_trip hP hW hR hn hd hv h hj hdep hi hg ht ht0 hz hnew hu
  rw [if_neg hL, C84_shows_partial hG hL hn' hq hc ha hr] at h'
  exact ⟨t', rfl, h'⟩

end

end VJ
