import Verif.Proof.Repeat
import Verif.Props.Total
import Verif.Props.Determinism
import Verif.Props.Text

/-!
# C44: decoding the same document again
-/

namespace VJ
set_option linter.unusedSectionVars false

section
variable [Ext] {Γ : Env} {S : Nat → Prop}

/-- **C44.**  A document that was decoded without error is decoded without error again, and the
receiver stays as the first decode left it, whatever it held before the first. -/
theorem C44_decode_again (hP : RepeatSet Γ S) {n : Nat} (hn : S n) {v : JV} {s s' : GoVal} (h : Fills Γ n v s none s') :
    Fills Γ n v s' none s' := by
  obtain ⟨k, h⟩ := h
  exact ⟨k, fill_again hP k n v s s' hn h⟩

/-- **C44, with nothing left open**: the second decode can end in no other way. -/
theorem C44_only (hP : RepeatSet Γ S) {n : Nat} (hn : S n) {v : JV} {s s' s'' : GoVal} {e : Option Err} (h : Fills Γ n v s none s')
    (h' : Fills Γ n v s' e s'') : e = none ∧ s'' = s' := by
  have := fills_unique h' (C44_decode_again hP hn h)
  exact this

/-- **C44, any number of times**: decoding it any number of times is the same as decoding it once. -/
theorem C44_any_number (hP : RepeatSet Γ S) {n : Nat} (hn : S n) {v : JV} {s s' : GoVal} :
    DecodedAgain Γ n v s s' ↔ Fills Γ n v s none s' := by
  refine ⟨fun h => ?_, .once⟩
  induction h with
  | once h => exact h
  | again _ h' ih => obtain ⟨_, rfl⟩ := C44_only hP hn ih h'; exact ih

/-- **C44, for `UnmarshalJSON` on any text.** -/
theorem C44_unmarshal_again (hP : RepeatSet Γ S) {n : Nat} (hn : S n) {data : Str} {s s' : GoVal} (h : Unmarshals Γ n data s none s') :
    Unmarshals Γ n data s' none s' := by
  obtain ⟨k, h⟩ := h
  refine ⟨k, ?_⟩
  simp only [unmarshalJSON] at h ⊢
  cases hp : parseBytes data with
  | none => rw [hp] at h; simp at h
  | some v =>
    rw [hp] at h
    exact fill_again hP k n v s s' hn h

end

namespace Examples
open Sample
attribute [local instance] Sample.ext

/-- the sample package satisfies the hypotheses of the theorems above -/
theorem repeat_set : RepeatSet Γ PlainNames where
  closed := plain_package.closed
  noAnon := plain_package.noAnon
  foreign n v s s' hn hd := by
    have h : ∀ n ∈ plainNames, (Γ.decl n).isSome = true := by decide
    have := h n hn; rw [hd] at this; cases this

set_option maxRecDepth 200000 in
/-- a bag with a list of structs, decoded into a receiver that held another list: the first decode
changes the receiver … -/
theorem C44_first : Fills Γ 54 (.obj [(str "l", .arr [.obj [(str "rev", .num (str "7"))], .obj []])]) (.struct [.slice [.struct [.int 5], .struct [.int 6]] [.struct [.int 8]]]) none
    (.struct [.slice [.struct [.int 7], .struct [.int 6]] [.struct [.int 8]]]) := ⟨5, rfl⟩

/-- … and the second does not -/
example : Fills Γ 54 (.obj [(str "l", .arr [.obj [(str "rev", .num (str "7"))], .obj []])]) (.struct [.slice [.struct [.int 7], .struct [.int 6]] [.struct [.int 8]]]) none
    (.struct [.slice [.struct [.int 7], .struct [.int 6]] [.struct [.int 8]]]) :=
  C44_decode_again (S := fun n => n = 54 ∨ n = 2)
    { closed := by
        rintro n d t m (rfl | rfl) hd ht hm <;> cases hd <;> simp [Decl.types, base] at ht <;> subst ht <;> simp [TExpr.names] at hm <;> simp [hm]
      noAnon := by rintro n d t (rfl | rfl) hd ht <;> cases hd <;> simp [Decl.types, base] at ht <;> subst ht <;> rfl
      foreign := by rintro n v s s' (rfl | rfl) hd <;> cases hd } (Or.inl rfl) C44_first

set_option maxRecDepth 200000 in
/-- a map keeps the entries it had (C15), and twice the same document still counts once -/
example : Fills Γ 31 (.obj [(str "m", .obj [(str "a", .num (str "1")), (str "b", .num (str "2")), (str "a", .num (str "3"))])])
      (.struct [.map [(str "z", .int 9), (str "a", .int 4)]]) none (.struct [.map [(str "z", .int 9), (str "a", .int 3), (str "b", .int 2)]]) ∧
    Fills Γ 31 (.obj [(str "m", .obj [(str "a", .num (str "1")), (str "b", .num (str "2")), (str "a", .num (str "3"))])])
      (.struct [.map [(str "z", .int 9), (str "a", .int 3), (str "b", .int 2)]]) none (.struct [.map [(str "z", .int 9), (str "a", .int 3), (str "b", .int 2)]]) :=
  have h : Fills Γ 31 (.obj [(str "m", .obj [(str "a", .num (str "1")), (str "b", .num (str "2")), (str "a", .num (str "3"))])])
      (.struct [.map [(str "z", .int 9), (str "a", .int 4)]]) none (.struct [.map [(str "z", .int 9), (str "a", .int 3), (str "b", .int 2)]]) := ⟨5, rfl⟩
  ⟨h, C44_decode_again repeat_set (by simp [PlainNames, plainNames]) h⟩

set_option maxRecDepth 200000 in
/-- a decode of another document in between is not covered: it may change the receiver -/
theorem C44_not_other : Fills Γ 32 (.obj [(str "a", .num (str "1"))]) (.struct [.int 0]) none (.struct [.int 1]) ∧
    Fills Γ 32 (.obj [(str "a", .num (str "2"))]) (.struct [.int 1]) none (.struct [.int 2]) ∧
    ¬ Fills Γ 32 (.obj [(str "a", .num (str "1"))]) (.struct [.int 2]) none (.struct [.int 2]) := by
  refine ⟨⟨5, rfl⟩, ⟨5, rfl⟩, fun h => ?_⟩
  have := fills_unique h (⟨5, rfl⟩ : Fills Γ 32 (.obj [(str "a", .num (str "1"))]) (.struct [.int 2]) none (.struct [.int 1]))
  simp at this

end Examples

end VJ
