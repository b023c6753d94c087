import Verif.Props.Plain
import Verif.Props.Times

/-!
# C85: values with times and floats survive

`Spec/Plain.lean` says which types are plain; here they may also have times and floats, of
which the value is asked that they are of the kind that is kept.
-/

namespace VJ
open TimeText

/-- The year has four digits, the offset is a number of minutes and less than a day, and the
zero instant is in UTC. -/
structure GoodTime (t : Time) : Prop where
  year : ∀ d, OnDate t d → 0 ≤ d.year ∧ d.year ≤ 9999
  minutes : 60 ∣ t.off
  offset : -86400 < t.off ∧ t.off < 86400
  zero : t.isZero = true → t = .zero

theorem GoodTime.showable {t : Time} (h : GoodTime t) : Showable t := ⟨h.year, by have := h.offset; omega, by have := h.offset; omega⟩

theorem digitsVal_lt {s : Str} {n : Nat} (h : Wide 2 s n) : digitsVal s = n := (digits_iff.1 h.2).2

theorem check_zone (p : Str) (c : Char) (a b : Str) {n : Nat} (ha : Wide 2 a n) (hb : b.length = 2) (hn : n < 24) (hc : isDigit c = false) :
    (if (p ++ c :: (a ++ ':' :: b)).getLast? = some 'Z' then some (p ++ c :: (a ++ ':' :: b))
      else if 24 ≤ digitsVal ((((p ++ c :: (a ++ ':' :: b)).drop ((p ++ c :: (a ++ ':' :: b)).length - 6)).drop 1).take 2) ∨
          (((p ++ c :: (a ++ ':' :: b)).drop ((p ++ c :: (a ++ ':' :: b)).length - 6)).head?.map isDigit).getD false then none
        else some (p ++ c :: (a ++ ':' :: b))) = some (p ++ c :: (a ++ ':' :: b)) := by
  have hlen : (c :: (a ++ ':' :: b)).length = 6 := by simp [ha.1, hb]
  have hdrop : (p ++ c :: (a ++ ':' :: b)).drop ((p ++ c :: (a ++ ':' :: b)).length - 6) = c :: (a ++ ':' :: b) := by
    rw [List.length_append, hlen, Nat.add_sub_cancel, List.drop_left]
  rw [hdrop]
  split
  · rfl
  · rw [if_neg]
    have : ((c :: (a ++ ':' :: b)).drop 1).take 2 = a := by
      rw [List.drop_one, List.tail_cons, ← ha.1, List.take_left]
    rw [this, digitsVal_lt ha]
    simp only [List.head?_cons, Option.map_some, Option.getD_some, hc, Bool.false_eq_true, or_false]
    omega

/-- such times have a text -/
theorem marshalText_some {t : Time} (hy : ∀ d, OnDate t d → 0 ≤ d.year ∧ d.year ≤ 9999) (ho : -86400 < t.off ∧ t.off < 86400) :
    marshalText t = some (format nanoChunks t) := by
  obtain ⟨d, hd⟩ : ∃ d, DayIs (localDay t) d := exists_dayIs _
  have hT := textOf hd
  obtain ⟨y1, y2⟩ := hy d hd
  have h4 : (format nanoChunks t)[4]? = some '-' := by
    have hl : (Chunk.text t .year).length = 4 := (hT.year y1 y2).1
    show (Chunk.text t .year ++ '-' :: _)[4]? = _
    rw [List.getElem?_append_right (by omega), hl]
    rfl
  obtain ⟨p, hp⟩ : ∃ p, format nanoChunks t = p ++ appendZone t.off := ⟨format nanoChunks.dropLast t, by
    simp [format, nanoChunks, List.flatMap_cons, Chunk.text, List.dropLast]⟩
  unfold marshalText
  dsimp only
  rw [if_neg (by rw [h4]; simp)]
  rw [hp]
  unfold appendZone
  split
  · rw [if_pos (by simp)]
  · generalize hz : t.off.tdiv 60 = z
    have hb : -1440 < z ∧ z < 1440 := by
      rcases Int.le_total 0 t.off with h | h
      · rw [Int.tdiv_eq_ediv_of_nonneg h] at hz; omega
      · have : (-t.off).tdiv 60 = -z := by rw [Int.neg_tdiv, hz]
        rw [Int.tdiv_eq_ediv_of_nonneg (by omega)] at this; omega
    have ha := wide_appendInt (w := 2) (x := ((z.natAbs / 60 : Nat) : Int)) (by omega) (by simp; omega)
    have hb' := wide_appendInt (w := 2) (x := ((z.natAbs % 60 : Nat) : Int)) (by omega) (by simp; omega)
    rw [Int.toNat_natCast] at ha hb'
    dsimp only
    exact check_zone p _ _ _ ha hb'.1 (by omega) (by split <;> decide)

section
variable [Ext] {Γ : Env} {S : Nat → Prop} {F : Nat → Option GoVal → JV → Prop} {X : Nat → GoVal → Prop} {K : Kinds}

/-- The float is written as a number which reads back as the same float (so it is not `-0`, which is written `0`). -/
structure GoodFloat (p : Prim) (f : F64) : Prop where
  text : NumText (Ext.fmtFloat f)
  reads : Ext.parseFloat (Ext.fmtFloat f) = some f
  zero : f.isZero = true → f = 0
  single : p = .float32 → Ext.toFloat32 f = f ∧ Ext.gtMaxFloat32 f = false

/-- All times and floats in the value are of this kind. -/
structure GoodParts (Γ : Env) (T : TExpr) (V : GoVal) : Prop where
  times : ∀ t, Part Γ T V .time (.time t) → GoodTime t
  floats : ∀ p f, Part Γ T V (.prim p) (.float f) → GoodFloat p f

theorem GoodParts.kept (hG : GoTimes) {T : TExpr} {V : GoVal} (h : GoodParts Γ T V) : KeptParts Γ T V where
  floats p f hp := ⟨(h.floats p f hp).text, (h.floats p f hp).reads, (h.floats p f hp).zero, (h.floats p f hp).single⟩
  times t hp := by
    have ht := h.times t hp
    obtain ⟨⟨h1, h2⟩, h3, h4⟩ := C83_lossless hG ht.showable ht.minutes
    refine ⟨h1, ⟨format nanoChunks t, ?_⟩, h2, h3, fun h0 => ⟨ht.zero h0, h4 (ht.zero h0)⟩⟩
    rw [hG.text]
    exact marshalText_some ht.year ht.offset

/-- **C85.** Every value of a plain type with times and floats of this kind is encoded without error, as valid JSON, and read back
unchanged into a new variable. -/
theorem C85_every_value (hG : GoTimes) (hE : EncPackage Γ F S) (hP : PlainPackageOf K Γ S) (hz : Ext.parseFloat (str "0") = some 0)
    {n : Nat} (hn : S n) {v : GoVal} (hv : HasType Γ X (.named n) v) (hg : GoodParts Γ (.named n) v) :
    ∃ s jv, Marshals Γ n (some v) (.ok s) ∧ Json jv s ∧
      (DepthLe 300 jv → ∀ z, ZeroIs Γ n z → ∀ e v', Unmarshals Γ n s z e v' ↔ e = none ∧ v' = v.trim) :=
  kept_every_value hE hP hz hn hv (hg.kept hG)

/-- **C85, no two such values have the same text.** -/
theorem C85_injective (hG : GoTimes) (hE : EncPackage Γ F S) (hP : PlainPackageOf K Γ S) (hz : Ext.parseFloat (str "0") = some 0)
    {n : Nat} (hn : S n) {v v' : GoVal} (hv : HasType Γ X (.named n) v) (hv' : HasType Γ X (.named n) v') (hg : GoodParts Γ (.named n) v)
    (hg' : GoodParts Γ (.named n) v') {s : Str} (h : Marshals Γ n (some v) (.ok s)) (h' : Marshals Γ n (some v') (.ok s))
    (hdep : ∀ jv, Json jv s → DepthLe 300 jv) : SameVisible v v' :=
  kept_injective hE hP hz hn hv hv' (hg.kept hG) (hg'.kept hG) h h' hdep

/-- **C85, what is read back is written as the same text again.** -/
theorem C85_same_text (hG : GoTimes) (hE : EncPackage Γ F S) (hP : PlainPackageOf K Γ S) (hz : Ext.parseFloat (str "0") = some 0)
    (hΓ : SpareBlind Γ) {n : Nat} (hn : S n) {v : GoVal} (hv : HasType Γ X (.named n) v) (hg : GoodParts Γ (.named n) v) {s : Str}
    (h : Marshals Γ n (some v) (.ok s)) (hdep : ∀ jv, Json jv s → DepthLe 300 jv) {z : GoVal} (hzero : ZeroIs Γ n z) {e : Option Err}
    {v' : GoVal} (hu : Unmarshals Γ n s z e v') : e = none ∧ Marshals Γ n (some v') (.ok s) :=
  kept_same_text hE hP hz hΓ hn hv (hg.kept hG) h hdep hzero hu

end
end VJ
