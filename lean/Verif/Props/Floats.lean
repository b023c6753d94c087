import Verif.Proof.FloatsNear
import Verif.Props.Kept
import Verif.Props.Integers

/-!
# C86: floats as texts

`Spec/Floats.lean` says which number a text denotes and which float is the nearest one.
-/

namespace VJ
open Floats

variable [Ext]

/-- **C86, every JSON number is read**, and what it denotes is not in doubt: it is written with one sign, one
integer part, one fraction and one exponent; its sign is kept. -/
theorem C86_numbers (hG : GoFloats) {s : Str} (h : NumText s) :
    (∃ n, Numeral n s ∧ (∀ n', Numeral n' s → n' = n) ∧ ∃ f, Ext.parseFloat s = some f ∧ (Negative f ↔ n.neg = true)) := by
  obtain ⟨n, hn⟩ := numText_iff.1 h
  have hp := parts_written hn
  refine ⟨n, hn, fun n' hn' => ?_, signed n.neg (fast n), ?_, (signed_spec (toNat_fast n)).2⟩
  · have := parts_written hn'
    rw [hp] at this
    exact (Option.some.inj this).symm
  · rw [hG.parse s (by rw [hp]; simp), parse, hp]; rfl

/-- **C86, which numbers are read as the nearest float.** Those without an exponent, and whole numbers of up to 53 bits
with an exponent from 0 to 22.  (Missing: other numbers with an exponent; `C86_exponent` is one that is not read as the nearest float.) -/
theorem C86_reads_partial (hG : GoFloats) {s : Str} {n : Parts} (h : Numeral n s)
    (hx : n.exp = none ∨ (n.frac = [] ∧ ∃ ds, n.exp = some (false, ds) ∧ TimeText.digitsVal n.int < 2 ^ 53 ∧ TimeText.digitsVal ds ≤ 22)) :
    ∃ f, Ext.parseFloat s = some f ∧ (Negative f ↔ n.neg = true) ∧ Nearest f n.value := by
  have hp := parts_written h
  have he : fast n = exactly n := by
    rcases hx with hx | ⟨hf, ds, hx, h1, h2⟩
    · exact fast_none h hx
    · exact fast_whole hf hx h1 h2
  have hs := signed_spec (neg := n.neg) (toNat_fast n)
  refine ⟨signed n.neg (fast n), ?_, hs.2, nearest_congr hs.1 (he ▸ exactly_nearest n)⟩
  rw [hG.parse s (by rw [hp]; simp), parse, hp]; rfl

/-- **C86, how far off every other number is read.** Numbers from 2^-1000 to 2^1000, with any exponent, are read
with a relative error of at most 2^-50; zero is read as zero.  (Missing: numbers that are still nearer to zero or
larger, up to the limits of float64.) -/
theorem C86_close_partial (hG : GoFloats) {s : Str} {n : Parts} (h : Numeral n s)
    (hv : n.value = 0 ∨ (1 / 2 ^ 1000 ≤ n.value ∧ n.value ≤ 2 ^ 1000)) :
    ∃ f, Ext.parseFloat s = some f ∧ IsFinite f ∧ (Negative f ↔ n.neg = true) ∧ |absVal f - n.value| ≤ n.value / 2 ^ 50 := by
  have hp := parts_written h
  have hs := signed_spec (neg := n.neg) (toNat_fast n)
  have ha : absVal (signed n.neg (fast n)) = absVal (fast n) := by unfold absVal units; rw [hs.1]
  have key : IsFinite (fast n) ∧ |absVal (fast n) - n.value| ≤ n.value / 2 ^ 50 := by
    rcases hv with h0 | ⟨h1, h2⟩
    · rw [fast_zero h0, h0, absVal_zero]
      refine ⟨by unfold IsFinite; decide +kernel, by norm_num⟩
    · obtain ⟨h3, h4⟩ := fast_near h h1 h2
      exact ⟨h3, (h4.mono (absVal_nonneg _) (le_trans (div_pos one_pos (two_pos' 1000)).le h1) (by norm_num)).close⟩
  refine ⟨signed n.neg (fast n), ?_, ?_, hs.2, by rw [ha]; exact key.2⟩
  · rw [hG.parse s (by rw [hp]; simp), parse, hp]; rfl
  · unfold IsFinite; rw [hs.1]; exact key.1

/-- **C86, in a struct.** What a `float64` field (or the float a pointer field points to) holds after a successful decode is the
float nearest to the number in the document, for the same numbers. -/
theorem C86_field_partial (hG : GoFloats) {Γ : Env} {m : Nat} {doc : JV} {fd : FieldDecl} {old new : GoVal} {s : Str} {n : Parts}
    (h : FieldAfter Γ m doc fd old new) (hn : fd.tags.jsonName ≠ str "-") (hn' : fd.tags.jsonName ≠ [])
    (ht : IsPrim Γ (pointee fd.typ) .float64) (hw : doc.get fd.tags.jsonName = some (.num s)) (hs : Numeral n s)
    (hx : n.exp = none ∨ (n.frac = [] ∧ ∃ ds, n.exp = some (false, ds) ∧ TimeText.digitsVal n.int < 2 ^ 53 ∧ TimeText.digitsVal ds ≤ 22)) :
    ∃ f, Holds fd.typ new (.float f) ∧ (Negative f ↔ n.neg = true) ∧ Nearest f n.value := by
  obtain ⟨x, h1, h2, -⟩ := intField h hn hn' ht hw (fun _ => by simp)
  obtain ⟨f, hf, h3, h4⟩ := C86_reads_partial hG hs hx
  cases h2 with
  | signed hp => cases hp
  | unsigned hp => cases hp
  | float64 h => rw [hf] at h; cases h; exact ⟨f, h1, h3, h4⟩

/-- **C86, the text says which float it is.** A finite float is written as a JSON number with its sign, and no float is
nearer to that number; -/
theorem C86_text (hG : GoFloats) {f : F64} (hf : IsFinite f) :
    NumText (Ext.fmtFloat f) ∧ ∃ n, Numeral n (Ext.fmtFloat f) ∧ (n.neg = true ↔ Negative f) ∧ Nearest f n.value := by
  obtain ⟨n, hw, hn, he⟩ := format_written hf
  rw [hG.format f hf]
  refine ⟨numText_iff.2 ⟨n, hw⟩, n, hw, by rw [hn]; exact decide_eq_true_iff, ?_⟩
  refine nearest_congr ?_ (exactly_nearest n)
  rw [he, magBits_ofNat (lt_trans hf (by norm_num))]

/-- and no two finite floats have the same text. -/
theorem C86_text_injective (hG : GoFloats) {f g : F64} (hf : IsFinite f) (hg : IsFinite g) (h : Ext.fmtFloat f = Ext.fmtFloat g) : f = g := by
  rw [hG.format f hf, hG.format g hg] at h
  obtain ⟨n, hw, hn, he⟩ := format_written hf
  obtain ⟨n', hw', hn', he'⟩ := format_written hg
  rw [h] at hw
  have := (parts_written hw).symm.trans (parts_written hw')
  cases this
  rw [← signed_split f, ← signed_split g, ← hn, ← hn', ← he, ← he']

/-- **C86, which floats come back.** Those that are written without an exponent.  (Missing: the others; `C86_lost` is one
that does not come back.) -/
theorem C86_survives_partial (hG : GoFloats) {f : F64} (hf : IsFinite f) (he : ∀ c ∈ Ext.fmtFloat f, c ≠ 'e' ∧ c ≠ 'E') :
    Ext.parseFloat (Ext.fmtFloat f) = some f := by
  rw [hG.format f hf] at he ⊢
  obtain ⟨n, hw, hn, hx⟩ := format_written hf
  have hp := parts_written hw
  have hnone : n.exp = none := by
    obtain ⟨-, ft, et, ht, -, h | ⟨e, sg, ds, h, hc, -⟩⟩ := hw
    · exact h.2
    · exfalso
      have := he e (by rw [ht, h]; simp)
      rcases hc with rfl | rfl
      · exact this.1 rfl
      · exact this.2 rfl
  rw [hG.parse _ (by rw [hp]; simp), parse, hp, Option.map_some, fast_none hw hnone, hx, hn, signed_split]

/-- **C86, how far off a float comes back.** Every float from 2^-999 to 2^999 comes back with its sign and a relative error of
at most 2^-50. -/
theorem C86_comes_back_partial (hG : GoFloats) {f : F64} (hf : IsFinite f) (hlo : 1 / 2 ^ 999 ≤ absVal f) (hhi : absVal f ≤ 2 ^ 999) :
    ∃ f', Ext.parseFloat (Ext.fmtFloat f) = some f' ∧ IsFinite f' ∧ (Negative f' ↔ Negative f) ∧ |absVal f' - absVal f| ≤ absVal f / 2 ^ 50 := by
  obtain ⟨n, hw, hn, hx⟩ := format_written hf
  have hp := parts_written hw
  have hm : magBits f = magBits (exactly n) := by rw [hx, magBits_ofNat (lt_trans hf (by norm_num))]
  have ha : absVal f = absVal (exactly n) := by unfold absVal units; rw [hm]
  have hv0 : 0 ≤ n.value := by
    unfold Parts.value
    exact mul_nonneg (Nat.cast_nonneg _) (zpow_nonneg (by norm_num) _)
  obtain ⟨b1, b2⟩ := value_bounds (nearest_congr hm (exactly_nearest n)) hf hlo hhi hv0
  obtain ⟨-, he⟩ := exactly_near b1 b2
  obtain ⟨h3, h4⟩ := fast_near hw b1 b2
  have hs := signed_spec (neg := n.neg) (toNat_fast n)
  have hab : absVal (signed n.neg (fast n)) = absVal (fast n) := by unfold absVal units; rw [hs.1]
  refine ⟨signed n.neg (fast n), ?_, ?_, ?_, ?_⟩
  · rw [hG.format f hf, hG.parse _ (by rw [hp]; simp), parse, hp]; rfl
  · unfold IsFinite; rw [hs.1]; exact h3
  · rw [hs.2, hn]; exact decide_eq_true_iff
  · rw [hab, ha]; exact (h4.trans he.symm).close

/-- finite, written without an exponent, and not the negative zero; a `float32` is one -/
structure PlainFloat (p : Prim) (f : F64) : Prop where
  finite : IsFinite f
  plain : ∀ c ∈ Ext.fmtFloat f, c ≠ 'e' ∧ c ≠ 'E'
  zero : f.isZero = true → f = 0
  single : p = .float32 → Ext.toFloat32 f = f ∧ Ext.gtMaxFloat32 f = false

theorem PlainFloat.good (hG : GoFloats) {p : Prim} {f : F64} (h : PlainFloat p f) : GoodFloat p f :=
  ⟨(C86_text hG h.finite).1, C86_survives_partial hG h.finite h.plain, h.zero, h.single⟩

theorem floats_zero (hG : GoFloats) : Ext.parseFloat (str "0") = some 0 := by
  have hw : Numeral ⟨false, ['0'], [], none⟩ (str "0") := ⟨.inl rfl, [], [], rfl, .inl ⟨rfl, rfl⟩, .inl ⟨rfl, rfl⟩⟩
  have hp := parts_written hw
  rw [hG.parse _ (by rw [hp]; simp), parse, hp, Option.map_some, fast_none hw rfl]
  have h0 : exactly ⟨false, ['0'], [], none⟩ = 0 := by decide +kernel
  rw [h0, signed, if_neg (by decide)]

variable {Γ : Env} {X : Nat → GoVal → Prop} {F : Nat → Option GoVal → JV → Prop} {S : Nat → Prop} {K : Kinds}

/-- **C86, whole values.** Values of a plain type whose floats are written without an exponent are encoded without
error, as valid JSON, and read back unchanged. -/
theorem C86_values (hG : GoFloats) (hT : TimeText.GoTimes) (hE : EncPackage Γ F S) (hP : PlainPackageOf K Γ S) {n : Nat} (hn : S n) {v : GoVal}
    (hv : HasType Γ X (.named n) v) (ht : ∀ t, Part Γ (.named n) v .time (.time t) → GoodTime t)
    (hf : ∀ p f, Part Γ (.named n) v (.prim p) (.float f) → PlainFloat p f) :
    ∃ s jv, Marshals Γ n (some v) (.ok s) ∧ Json jv s ∧
      (DepthLe 300 jv → ∀ z, ZeroIs Γ n z → ∀ e v', Unmarshals Γ n s z e v' ↔ e = none ∧ v' = v.trim) :=
  C85_every_value hT hE hP (floats_zero hG) hn hv ⟨ht, fun p f h => (hf p f h).good hG⟩

/-- **C86, a number with an exponent need not be read as the nearest float:** `3e-5` is not; another float is nearer. -/
theorem C86_exponent (hG : GoFloats) : ∃ n f g, Numeral n (str "3e-5") ∧ n.value = 3 / 100000 ∧ Ext.parseFloat (str "3e-5") = some f ∧
    IsFinite g ∧ |absVal g - n.value| < |absVal f - n.value| := by
  have hp : parts (str "3e-5") = some ⟨false, ['3'], [], some (true, ['5'])⟩ := by decide +kernel
  have hr : parse (str "3e-5") = some 0x3eff75104d551d6a := by decide +kernel
  have hv : (⟨false, ['3'], [], some (true, ['5'])⟩ : Parts).value = (3 : Nat) / (100000 : Nat) := by
    have h5 : (TimeText.digitsVal ['5'] : ℤ) = (5 : Nat) := rfl
    have h3 : (TimeText.digitsVal (['3'] ++ []) : ℚ) = 3 := by rw [show TimeText.digitsVal (['3'] ++ []) = 3 from rfl]; norm_num
    unfold Parts.value Parts.exponent
    dsimp only
    rw [h3, h5, List.length_nil, Nat.cast_zero, sub_zero, zpow_neg, zpow_natCast]
    norm_num
  refine ⟨_, _, 0x3eff75104d551d69, written_parts hp, ?_, (hG.parse _ (by rw [hp]; simp)).trans hr, by unfold IsFinite; decide +kernel, ?_⟩
  · rw [hv]; norm_num
  · rw [hv, absVal, absVal, abs_ratio (by norm_num), abs_ratio (by norm_num)]
    refine div_lt_div_of_pos_right ?_ (by positivity)
    have : |(units 0x3eff75104d551d69 * (100000 : Nat) : Int) - (3 * 2 ^ 1074 : Nat)| <
        |(units 0x3eff75104d551d6a * (100000 : Nat) : Int) - (3 * 2 ^ 1074 : Nat)| := by
      rw [Int.abs_eq_natAbs, Int.abs_eq_natAbs]
      decide +kernel
    exact_mod_cast this

end VJ
