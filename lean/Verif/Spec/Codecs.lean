import Verif.Model.Basic

/-!
# base64 (RFC 4648) and UUID texts
-/

namespace VJ

def base64Alphabet : Str := str "ABCDEFGHIJKLMNOPQRSTUVWXYZabcdefghijklmnopqrstuvwxyz0123456789+/"

/-- `c` is the digit of value `n` -/
def B64Digit (c : Char) (n : Nat) : Prop := base64Alphabet[n]? = some c

/-- `B64 s b`: the text is padded base64 for the bytes.  Bits of the last digit that belong to
no byte are not looked at. -/
inductive B64 : Str → List UInt8 → Prop
  | nil : B64 [] []
  | one {a b : Char} {x y : Nat} (ha : B64Digit a x) (hb : B64Digit b y) :
      B64 [a, b, '=', '='] [UInt8.ofNat (x * 4 + y / 16)]
  | two {a b c : Char} {x y z : Nat} (ha : B64Digit a x) (hb : B64Digit b y) (hc : B64Digit c z) :
      B64 [a, b, c, '='] [UInt8.ofNat (x * 4 + y / 16), UInt8.ofNat (y % 16 * 16 + z / 4)]
  | three {a b c d : Char} {x y z w : Nat} {s : Str} {bs : List UInt8} (ha : B64Digit a x) (hb : B64Digit b y) (hc : B64Digit c z)
      (hd : B64Digit d w) (hs : B64 s bs) :
      B64 (a :: b :: c :: d :: s)
        (UInt8.ofNat (x * 4 + y / 16) :: UInt8.ofNat (y % 16 * 16 + z / 4) :: UInt8.ofNat (z % 4 * 64 + w) :: bs)

/-- the text without its line breaks -/
def withoutBreaks (s : Str) : Str := s.filter fun c => c != '\n' && c != '\r'

/-- `s` is base64 text for the bytes `b`, perhaps broken into lines -/
def Base64Text (s : Str) (b : List UInt8) : Prop := B64 (withoutBreaks s) b

/-- a hexadecimal digit and its value -/
inductive HexDigit : Char → Nat → Prop
  | digit {d : Nat} (h : d < 10) : HexDigit (Char.ofNat (48 + d)) d
  | lower {d : Nat} (h : d < 6) : HexDigit (Char.ofNat (97 + d)) (10 + d)
  | upper {d : Nat} (h : d < 6) : HexDigit (Char.ofNat (65 + d)) (10 + d)

/-- one digit or more in base `b`, and the number they denote -/
inductive DigitsOf (b : Nat) : Str → Nat → Prop
  | one {c : Char} {d : Nat} (h : HexDigit c d) (hb : d < b) : DigitsOf b [c] d
  | more {s : Str} {n : Nat} {c : Char} {d : Nat} (hs : DigitsOf b s n) (h : HexDigit c d) (hb : d < b) :
      DigitsOf b (s ++ [c]) (n * b + d)

/-- A Go integer literal and its value (https://go.dev/ref/spec#Integer_literals, without
underscores). -/
inductive GoNumeral : Str → Nat → Prop
  | zero : GoNumeral ['0'] 0
  | decimal {c : Char} {s : Str} {n : Nat} (hc : c ≠ '0') (h : DigitsOf 10 (c :: s) n) : GoNumeral (c :: s) n
  | octal {s : Str} {n : Nat} (h : DigitsOf 8 s n) : GoNumeral ('0' :: s) n
  | octal' {o : Char} {s : Str} {n : Nat} (ho : o = 'o' ∨ o = 'O') (h : DigitsOf 8 s n) : GoNumeral ('0' :: o :: s) n
  | hex {x : Char} {s : Str} {n : Nat} (hx : x = 'x' ∨ x = 'X') (h : DigitsOf 16 s n) : GoNumeral ('0' :: x :: s) n
  | binary {b : Char} {s : Str} {n : Nat} (hb : b = 'b' ∨ b = 'B') (h : DigitsOf 2 s n) : GoNumeral ('0' :: b :: s) n

/-- An integer literal with or without a sign in front of it. -/
inductive GoInteger : Str → Int → Prop
  | plain {s : Str} {n : Nat} (h : GoNumeral s n) : GoInteger s n
  | plus {s : Str} {n : Nat} (h : GoNumeral s n) : GoInteger ('+' :: s) n
  | minus {s : Str} {n : Nat} (h : GoNumeral s n) : GoInteger ('-' :: s) (-(n : Int))

/-- two hexadecimal digits per byte -/
inductive HexBytes : Str → List UInt8 → Prop
  | nil : HexBytes [] []
  | cons {a b : Char} {x y : Nat} {s : Str} {bs : List UInt8} (ha : HexDigit a x) (hb : HexDigit b y) (hs : HexBytes s bs) :
      HexBytes (a :: b :: s) (UInt8.ofNat (x * 16 + y) :: bs)

/-- the usual text of a UUID: groups of 4, 2, 2, 2 and 6 bytes in hexadecimal -/
def UUIDText (s : Str) (b : List UInt8) : Prop :=
  ∃ (s1 s2 s3 s4 s5 : Str) (b1 b2 b3 b4 b5 : List UInt8), s = s1 ++ '-' :: (s2 ++ '-' :: (s3 ++ '-' :: (s4 ++ '-' :: s5))) ∧
    b = b1 ++ (b2 ++ (b3 ++ (b4 ++ b5))) ∧
    HexBytes s1 b1 ∧ HexBytes s2 b2 ∧ HexBytes s3 b3 ∧ HexBytes s4 b4 ∧ HexBytes s5 b5 ∧
    b1.length = 4 ∧ b2.length = 2 ∧ b3.length = 2 ∧ b4.length = 2 ∧ b5.length = 6

/-- `s` is a text that is read as the UUID `b`. -/
inductive ReadsUUID : Str → List UInt8 → Prop
  /-- the usual text -/
  | text {s : Str} {b : List UInt8} (h : UUIDText s b) : ReadsUUID s b
  /-- the same after `urn:uuid:` -/
  | urn {p s : Str} {b : List UInt8} (hp : p.map Char.toLower = str "urn:uuid:") (h : UUIDText s b) : ReadsUUID (p ++ s) b
  /-- the same in braces, or in fact between any two ASCII characters -/
  | wrapped {c d : Char} {s : Str} {b : List UInt8} (hc : c.toNat < 128) (hd : d.toNat < 128) (h : UUIDText s b) :
      ReadsUUID (c :: (s ++ [d])) b
  /-- 32 hexadecimal digits -/
  | digits {s : Str} {b : List UInt8} (h : HexBytes s b) (hl : b.length = 16) : ReadsUUID s b

/-- lower-case letters only -/
def LowerCase (s : Str) : Prop := ∀ c ∈ s, ¬ (65 ≤ c.toNat ∧ c.toNat ≤ 90)

/-- The layout constants of package time (https://pkg.go.dev/time#pkg-constants). -/
def layoutConstants : List (String × String) :=
  [ ("Layout", "01/02 03:04:05PM '06 -0700"), ("ANSIC", "Mon Jan _2 15:04:05 2006"),
    ("UnixDate", "Mon Jan _2 15:04:05 MST 2006"), ("RubyDate", "Mon Jan 02 15:04:05 -0700 2006"),
    ("RFC822", "02 Jan 06 15:04 MST"), ("RFC822Z", "02 Jan 06 15:04 -0700"),
    ("RFC850", "Monday, 02-Jan-06 15:04:05 MST"), ("RFC1123", "Mon, 02 Jan 2006 15:04:05 MST"),
    ("RFC1123Z", "Mon, 02 Jan 2006 15:04:05 -0700"), ("RFC3339", "2006-01-02T15:04:05Z07:00"),
    ("RFC3339Nano", "2006-01-02T15:04:05.999999999Z07:00"), ("Kitchen", "3:04PM"),
    ("Stamp", "Jan _2 15:04:05"), ("StampMilli", "Jan _2 15:04:05.000"),
    ("StampMicro", "Jan _2 15:04:05.000000"), ("StampNano", "Jan _2 15:04:05.000000000"),
    ("DateTime", "2006-01-02 15:04:05"), ("DateOnly", "2006-01-02"), ("TimeOnly", "15:04:05") ]

/-- the constant called `name` is the layout `l` -/
def LayoutConst (name l : Str) : Prop := ∃ p ∈ layoutConstants, name = str p.1 ∧ l = str p.2

end VJ
