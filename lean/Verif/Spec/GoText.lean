import Verif.Spec.Codecs

/-!
# Go's interpreted strings

https://go.dev/ref/spec#String_literals.  Escapes that stand for bytes above 7f are left out.
-/

namespace VJ

/-- `Escape e c`: a backslash followed by the text `e` stands for the character `c`. -/
inductive Escape : Str → Char → Prop
  | bell : Escape ['a'] (Char.ofNat 7)
  | backspace : Escape ['b'] (Char.ofNat 8)
  | formFeed : Escape ['f'] (Char.ofNat 12)
  | newline : Escape ['n'] '\n'
  | return : Escape ['r'] '\r'
  | tab : Escape ['t'] '\t'
  | verticalTab : Escape ['v'] (Char.ofNat 11)
  | backslash : Escape ['\\'] '\\'
  | quote : Escape ['"'] '"'
  | octal {s : Str} {n : Nat} (hs : DigitsOf 8 s n) (hl : s.length = 3) (hn : n < 128) : Escape s (Char.ofNat n)
  | hex {s : Str} {n : Nat} (hs : DigitsOf 16 s n) (hl : s.length = 2) (hn : n < 128) : Escape ('x' :: s) (Char.ofNat n)
  | short {s : Str} {n : Nat} (hs : DigitsOf 16 s n) (hl : s.length = 4) (hn : n.isValidChar) : Escape ('u' :: s) (Char.ofNat n)
  | long {s : Str} {n : Nat} (hs : DigitsOf 16 s n) (hl : s.length = 8) (hn : n.isValidChar) : Escape ('U' :: s) (Char.ofNat n)

/-- `Interpreted src v`: the text `src`, written between double quotes, stands for `v`. -/
inductive Interpreted : Str → Str → Prop
  | nil : Interpreted [] []
  | plain {c : Char} {src v : Str} (h1 : c ≠ '"') (h2 : c ≠ '\\') (h3 : c ≠ '\n') (h : Interpreted src v) :
      Interpreted (c :: src) (c :: v)
  | escape {e src v : Str} {c : Char} (he : Escape e c) (h : Interpreted src v) : Interpreted ('\\' :: (e ++ src)) (c :: v)

/-- the text with a backslash in front of every double quote -/
def quotesEscaped (s : Str) : Str := s.flatMap fun c => if c = '"' then ['\\', '"'] else [c]

/-- The generator copies `s` between double quotes into Go source, with a backslash in front
of every double quote in it; the compiler reads that as `v`. -/
def ReadAsSource (s v : Str) : Prop :=
  Char.ofNat 0 ∉ s ∧ Char.ofNat 0xfeff ∉ s ∧ Interpreted (quotesEscaped s) v

/-- no backslash and no line break (nor NUL or byte order mark): the text means itself
between double quotes -/
def QuotesPlainly (s : Str) : Prop := '\\' ∉ s ∧ '\n' ∉ s ∧ Char.ofNat 0 ∉ s ∧ Char.ofNat 0xfeff ∉ s

end VJ
