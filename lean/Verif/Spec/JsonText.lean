import Verif.Spec.Decode

/-!
# JSON text (RFC 8259)

`Json v s`: the text `s` is a JSON value and denotes `v`.  `Document v s`: the same with
whitespace around it.
-/

namespace VJ

/-- insignificant whitespace -/
def Ws (s : Str) : Prop := ∀ c ∈ s, c = ' ' ∨ c = '\t' ∨ c = '\n' ∨ c = '\r'

/-- four hexadecimal digits -/
inductive Hex4 : Str → Nat → Prop
  | mk {a b c d : Char} {x y z w : Nat} (ha : HexDigit a x) (hb : HexDigit b y) (hc : HexDigit c z) (hd : HexDigit d w) :
      Hex4 [a, b, c, d] (x * 4096 + y * 256 + z * 16 + w)

/-- one character of a string, as it may stand in a string literal -/
inductive CharText : Char → Str → Prop
  | raw {c : Char} (h : 32 ≤ c.toNat) (hq : c ≠ '"') (hb : c ≠ '\\') : CharText c [c]
  | quote : CharText '"' ['\\', '"']
  | backslash : CharText '\\' ['\\', '\\']
  | slash : CharText '/' ['\\', '/']
  | b : CharText (Char.ofNat 8) ['\\', 'b']
  | f : CharText (Char.ofNat 12) ['\\', 'f']
  | n : CharText '\n' ['\\', 'n']
  | r : CharText '\r' ['\\', 'r']
  | t : CharText '\t' ['\\', 't']
  | u {c : Char} {h : Str} (hh : Hex4 h c.toNat) : CharText c ('\\' :: 'u' :: h)
  | pair {c : Char} {h l : Str} {hi lo : Nat} (hh : Hex4 h (0xD800 + hi)) (hl : Hex4 l (0xDC00 + lo)) (h1 : hi < 1024)
      (h2 : lo < 1024) (hc : c.toNat = 0x10000 + hi * 1024 + lo) : CharText c ('\\' :: 'u' :: h ++ '\\' :: 'u' :: l)

/-- the text between the quotes of a string literal -/
inductive StrText : Str → Str → Prop
  | nil : StrText [] []
  | cons {c : Char} {t s u : Str} (h : CharText c t) (hs : StrText s u) : StrText (c :: s) (t ++ u)

def Digits (s : Str) : Prop := s ≠ [] ∧ ∀ c ∈ s, ∃ d < 10, c = Char.ofNat (48 + d)

/-- a JSON number -/
inductive NumText : Str → Prop
  | mk {sign int frac exp : Str} (hs : sign = [] ∨ sign = ['-']) (hi : int = ['0'] ∨ (Digits int ∧ int.head? ≠ some '0'))
      (hf : frac = [] ∨ ∃ ds, frac = '.' :: ds ∧ Digits ds)
      (he : exp = [] ∨ ∃ e sg ds, exp = e :: sg ++ ds ∧ (e = 'e' ∨ e = 'E') ∧ (sg = [] ∨ sg = ['+'] ∨ sg = ['-']) ∧ Digits ds) :
      NumText (sign ++ int ++ frac ++ exp)

/-- texts separated by commas -/
def joinComma : List Str → Str
  | [] => []
  | [t] => t
  | t :: u :: ts => t ++ ',' :: joinComma (u :: ts)

/-- an array element with the whitespace around it -/
structure ElemText where
  pre : Str
  body : Str
  post : Str

def ElemText.text (p : ElemText) : Str := p.pre ++ p.body ++ p.post
def ElemText.ws (p : ElemText) : Prop := Ws p.pre ∧ Ws p.post

/-- an object member with the whitespace around its parts -/
structure MemberText where
  pre : Str
  key : Str
  mid : Str
  mid2 : Str
  body : Str
  post : Str

def MemberText.text (p : MemberText) : Str := p.pre ++ '"' :: (p.key ++ '"' :: (p.mid ++ ':' :: (p.mid2 ++ (p.body ++ p.post))))
def MemberText.ws (p : MemberText) : Prop := Ws p.pre ∧ Ws p.mid ∧ Ws p.mid2 ∧ Ws p.post

inductive Json : JV → Str → Prop
  | null : Json .null (str "null")
  | true : Json (.bool true) (str "true")
  | false : Json (.bool false) (str "false")
  | num {raw : Str} (h : NumText raw) : Json (.num raw) raw
  | str {s t : Str} (h : StrText s t) : Json (.str s) ('"' :: (t ++ ['"']))
  | arr0 {ws : Str} (h : Ws ws) : Json (.arr []) ('[' :: (ws ++ [']']))
  | arr {l : List JV} {ps : List ElemText} (hne : l ≠ []) (hl : ps.length = l.length) (hw : ∀ p ∈ ps, p.ws)
      (h : ∀ (i : Nat) (v : JV) (p : ElemText), l[i]? = some v → ps[i]? = some p → Json v p.body) :
      Json (.arr l) ('[' :: (joinComma (ps.map ElemText.text) ++ [']']))
  | obj0 {ws : Str} (h : Ws ws) : Json (.obj []) ('{' :: (ws ++ ['}']))
  | obj {kvs : List (Str × JV)} {ps : List MemberText} (hne : kvs ≠ []) (hl : ps.length = kvs.length) (hw : ∀ p ∈ ps, p.ws)
      (hk : ∀ (i : Nat) (kv : Str × JV) (p : MemberText), kvs[i]? = some kv → ps[i]? = some p → StrText kv.1 p.key)
      (h : ∀ (i : Nat) (kv : Str × JV) (p : MemberText), kvs[i]? = some kv → ps[i]? = some p → Json kv.2 p.body) :
      Json (.obj kvs) ('{' :: (joinComma (ps.map MemberText.text) ++ ['}']))

/-- a JSON text: one value with whitespace around it -/
def Document (v : JV) (s : Str) : Prop := ∃ a b c, s = a ++ b ++ c ∧ Ws a ∧ Ws c ∧ Json v b

/-- values nested at most `d` deep (a scalar has depth one) -/
inductive DepthLe : Nat → JV → Prop
  | null (d : Nat) : DepthLe (d + 1) .null
  | bool (d : Nat) (b : Bool) : DepthLe (d + 1) (.bool b)
  | num (d : Nat) (raw : Str) : DepthLe (d + 1) (.num raw)
  | str (d : Nat) (s : Str) : DepthLe (d + 1) (.str s)
  | arr {d : Nat} {l : List JV} (h : ∀ v ∈ l, DepthLe d v) : DepthLe (d + 1) (.arr l)
  | obj {d : Nat} {kvs : List (Str × JV)} (h : ∀ kv ∈ kvs, DepthLe d kv.2) : DepthLe (d + 1) (.obj kvs)

/-- text that needs no escaping inside a string literal -/
def PlainText (s : Str) : Prop := ∀ c ∈ s, 32 ≤ c.toNat ∧ c ≠ '"' ∧ c ≠ '\\'

end VJ
