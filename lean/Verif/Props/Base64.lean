import Verif.Proof.Base64
import Verif.Props.Text

/-!
# C29: byte slices and texts that are not base64
-/

namespace VJ

open Codecs

variable [Ext]

/-- **C29, refused texts.**  The methods of a byte-slice type on a JSON string: either the text is
base64 and the receiver holds its bytes, or the error says that it is not, and the receiver holds the
bytes of the longest beginning of the text that is base64, followed by zeros, three bytes for every
four of the text: nothing of what it held before. -/
theorem C29_named {Γ : Env} {n : Nat} {s : Str} {old new : GoVal} {e : Option Err}
    (hd : Γ.decl n = some (.alias (.slice (.prim .byte)))) (h : Fills Γ n (.str s) old e new) :
    (e = none ∧ ∃ b, Base64Text s b ∧ new = .bytes b) ∨
    (e = some (.plain (.badBase64 s)) ∧ (∀ b, ¬ Base64Text s b) ∧
      ∃ pre part zeros, pre <+: withoutBreaks s ∧ B64 pre part ∧
        (∀ pre' b, pre' <+: withoutBreaks s → B64 pre' b → pre'.length ≤ pre.length) ∧
        new = .bytes (part ++ List.replicate zeros 0) ∧ part.length + zeros = (s.map Char.utf8Size).sum / 4 * 3) := by
  obtain ⟨k, hk⟩ := h
  cases k with
  | zero => cases hk
  | succ k =>
    simp only [Env.methods, hd, declMethods, genFill, TExpr.isByte, if_true, runFill] at hk
    simp [bytesFill, JV.isNull, JV.getStr] at hk
    split at hk
    · rename_i ht
      cases hk
      refine Or.inl ⟨rfl, _, ?_, rfl⟩
      exact (b64DecodeQ_iff _ _ (Nat.le_refl _) _).1 (Prod.ext rfl ht)
    · rename_i ht
      cases hk
      obtain ⟨h1, pre, h2, h3, h4, h5⟩ := b64Decode_refused (s := s) (by simpa using ht)
      refine Or.inr ⟨rfl, h1, pre, _, _, h2, h3, h4, rfl, ?_⟩
      rw [← byteLen_eq]
      rw [b64DecodedLen] at h5 ⊢
      omega

namespace Examples

/-- `type T []byte` -/
def bytesEnv : Env := ⟨fun n => if n = 7 then some (.alias (.slice (.prim .byte))) else none, fun _ => .loop⟩

set_option maxRecDepth 100000 in
/-- both cases occur: a broken text with a good beginning, and a good text on two lines -/
example : Fills bytesEnv 7 (.str (str "SGVs\nbG8*YWJj")) (.bytes [1, 2]) (some (.plain (.badBase64 (str "SGVs\nbG8*YWJj"))))
      (.bytes [72, 101, 108, 0, 0, 0, 0, 0, 0]) ∧
    Fills bytesEnv 7 (.str (str "SGVs\nbG8=")) (.bytes [1, 2]) none (.bytes [72, 101, 108, 108, 111]) :=
  ⟨⟨3, rfl⟩, ⟨3, rfl⟩⟩

end Examples

end VJ
