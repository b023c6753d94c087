import Verif.Spec.JsonText

/-!
# The texts the parser accepts

fastjson accepts more than JSON: control characters and wrong escapes in strings, any run of
number characters, infinities and NaN.  `LooseDocument v s`: the text `s` is accepted, and is
read as `v`.  The structure (brackets, commas, colons, keys, whitespace) is that of JSON.
-/

namespace VJ

/-- four hexadecimal digits stand at the beginning of the text -/
def StartsHex4 (s : Str) : Prop := ∃ h n r, Hex4 h n ∧ s = h ++ r

/-- a code unit of a surrogate pair -/
def Surrogate (x : Nat) : Prop := 0xD800 ≤ x ∧ x < 0xE000

/-- the letters that may follow a backslash -/
def KnownEscape (e : Char) : Prop := e ∈ str "\"\\/bfnrtu"

/-- the text between the quotes of a string literal, and the string it is read as -/
inductive LooseStr : Str → Str → Prop
  | nil : LooseStr [] []
  /-- any character but a quote or a backslash, control characters included -/
  | char {c : Char} {s u : Str} (hq : c ≠ '"') (hb : c ≠ '\\') (hs : LooseStr s u) : LooseStr (c :: s) (c :: u)
  /-- an escape as JSON has it -/
  | esc {c : Char} {t s u : Str} (h : CharText c ('\\' :: t)) (hs : LooseStr s u) : LooseStr (c :: s) ('\\' :: t ++ u)
  /-- an unknown escape stands for itself -/
  | unknown {e : Char} {s u : Str} (he : ¬ KnownEscape e) (hs : LooseStr s u) : LooseStr ('\\' :: e :: s) ('\\' :: e :: u)
  /-- `\u` without four hexadecimal digits stands for itself -/
  | noHex {s u : Str} (h : ¬ StartsHex4 u) (hs : LooseStr s u) : LooseStr ('\\' :: 'u' :: s) ('\\' :: 'u' :: u)
  /-- half a surrogate pair stands for itself -/
  | alone {h s u : Str} {x : Nat} (hh : Hex4 h x) (hx : Surrogate x) (hu : ∀ r, u = '\\' :: 'u' :: r → ¬ StartsHex4 r)
      (hs : LooseStr s u) : LooseStr ('\\' :: 'u' :: h ++ s) ('\\' :: 'u' :: h ++ u)
  /-- two escapes that make no pair, the first of them half a pair, stand for U+FFFD -/
  | noPair {h l s u : Str} {x y : Nat} (hh : Hex4 h x) (hx : Surrogate x) (hl : Hex4 l y)
      (hn : ¬ (x < 0xDC00 ∧ 0xDC00 ≤ y ∧ y < 0xE000)) (hs : LooseStr s u) :
      LooseStr (Char.ofNat 0xFFFD :: s) ('\\' :: 'u' :: h ++ '\\' :: 'u' :: l ++ u)

/-- a character of a number -/
def NumLetter (c : Char) : Prop := (∃ d < 10, c = Char.ofNat (48 + d)) ∨ c ∈ str "+-.eE"

/-- `inf` or `nan` in any mixture of cases -/
def InfNan (s : Str) : Prop :=
  ∃ a b c, s = [a, b, c] ∧ ((a ∈ str "iI" ∧ b ∈ str "nN" ∧ c ∈ str "fF") ∨ (a ∈ str "nN" ∧ b ∈ str "aA" ∧ c ∈ str "nN"))

/-- a run of number characters, or an infinity or NaN -/
def LooseNum (s : Str) : Prop :=
  (s ≠ [] ∧ (∀ c ∈ s, NumLetter c) ∧ s ≠ ['-'] ∧ s ≠ ['+']) ∨
  ∃ sign n, s = sign ++ n ∧ (sign = [] ∨ sign = ['-'] ∨ sign = ['+']) ∧ InfNan n

/-- the values -/
inductive LooseJson : JV → Str → Prop
  | null : LooseJson .null (str "null")
  | true : LooseJson (.bool true) (str "true")
  | false : LooseJson (.bool false) (str "false")
  | num {raw : Str} (h : LooseNum raw) : LooseJson (.num raw) raw
  | str {s t : Str} (h : LooseStr s t) : LooseJson (.str s) ('"' :: (t ++ ['"']))
  | arr0 {ws : Str} (h : Ws ws) : LooseJson (.arr []) ('[' :: (ws ++ [']']))
  | arr {l : List JV} {ps : List ElemText} (hne : l ≠ []) (hl : ps.length = l.length) (hw : ∀ p ∈ ps, p.ws)
      (h : ∀ (i : Nat) (v : JV) (p : ElemText), l[i]? = some v → ps[i]? = some p → LooseJson v p.body) :
      LooseJson (.arr l) ('[' :: (joinComma (ps.map ElemText.text) ++ [']']))
  | obj0 {ws : Str} (h : Ws ws) : LooseJson (.obj []) ('{' :: (ws ++ ['}']))
  | obj {kvs : List (Str × JV)} {ps : List MemberText} (hne : kvs ≠ []) (hl : ps.length = kvs.length) (hw : ∀ p ∈ ps, p.ws)
      (hk : ∀ (i : Nat) (kv : Str × JV) (p : MemberText), kvs[i]? = some kv → ps[i]? = some p → LooseStr kv.1 p.key)
      (h : ∀ (i : Nat) (kv : Str × JV) (p : MemberText), kvs[i]? = some kv → ps[i]? = some p → LooseJson kv.2 p.body) :
      LooseJson (.obj kvs) ('{' :: (joinComma (ps.map MemberText.text) ++ ['}']))

/-- a text: a value nested at most 300 deep, with whitespace around it; or a sign at the very
end of the text, which passes for a number -/
def LooseDocument (v : JV) (s : Str) : Prop :=
  (∃ a b c, s = a ++ b ++ c ∧ Ws a ∧ Ws c ∧ LooseJson v b ∧ DepthLe 300 v) ∨
  ∃ a sign, s = a ++ sign ∧ Ws a ∧ (sign = ['-'] ∨ sign = ['+']) ∧ v = .num sign

end VJ
