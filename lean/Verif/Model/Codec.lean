import Verif.Model.Num

/-!
# Text codecs used by generated code: base64 and UUID

Third-party code is modelled from its documented behaviour: `encoding/base64`
(`StdEncoding`) and `github.com/google/uuid` (`ParseBytes`, `MarshalText`).
-/

namespace VJ

/-! ## base64 -/

/-- alphabet of `base64.StdEncoding` -/
def b64Char (n : Nat) : Char :=
  if n < 26 then Char.ofNat (65 + n)
  else if n < 52 then Char.ofNat (97 + (n - 26))
  else if n < 62 then Char.ofNat (48 + (n - 52))
  else if n = 62 then '+' else '/'

/-- decode map of `base64.StdEncoding` -/
def b64Val (c : Char) : Option Nat :=
  let n := c.toNat
  if 65 ≤ n ∧ n ≤ 90 then some (n - 65)
  else if 97 ≤ n ∧ n ≤ 122 then some (n - 97 + 26)
  else if 48 ≤ n ∧ n ≤ 57 then some (n - 48 + 52)
  else if c = '+' then some 62
  else if c = '/' then some 63
  else none

/-- `base64.StdEncoding.Encode` -/
def b64Encode : List UInt8 → Str
  | [] => []
  | [a] =>
    let n := a.toNat * 65536
    [b64Char (n / 262144), b64Char (n / 4096 % 64), '=', '=']
  | [a, b] =>
    let n := a.toNat * 65536 + b.toNat * 256
    [b64Char (n / 262144), b64Char (n / 4096 % 64), b64Char (n / 64 % 64), '=']
  | a :: b :: c :: rest =>
    let n := a.toNat * 65536 + b.toNat * 256 + c.toNat
    b64Char (n / 262144) :: b64Char (n / 4096 % 64) :: b64Char (n / 64 % 64) :: b64Char (n % 64)
      :: b64Encode rest

/-- Decoding of a text without line breaks: the bytes written to the destination, and
whether the text was correct (`base64.Encoding.decodeQuantum`, repeated). -/
def b64DecodeQ : Str → List UInt8 × Bool
  | [] => ([], true)
  | a :: b :: c :: d :: rest =>
    match b64Val a, b64Val b with
    | some x, some y =>
      match b64Val c with
      | some z =>
        match b64Val d with
        | some w =>
          let n := x * 262144 + y * 4096 + z * 64 + w
          let r := b64DecodeQ rest
          (UInt8.ofNat (n / 65536) :: UInt8.ofNat (n / 256 % 256) :: UInt8.ofNat (n % 256) :: r.1, r.2)
        | none =>
          if d = '=' then
            let n := x * 262144 + y * 4096 + z * 64
            ([UInt8.ofNat (n / 65536), UInt8.ofNat (n / 256 % 256)], rest.isEmpty)
          else ([], false)
      | none =>
        if c = '=' ∧ d = '=' then
          ([UInt8.ofNat ((x * 262144 + y * 4096) / 65536)], rest.isEmpty)
        else ([], false)
    | _, _ => ([], false)
  | _ => ([], false)

/-- `base64.StdEncoding.Decode`: line breaks are skipped everywhere. -/
def b64Decode (s : Str) : List UInt8 × Bool :=
  b64DecodeQ (s.filter fun c => c != '\n' && c != '\r')

/-- number of bytes of a text in UTF-8 -/
def byteLen (s : Str) : Nat := s.foldl (fun n c => n + c.utf8Size) 0

/-- `base64.StdEncoding.DecodedLen` -/
def b64DecodedLen (n : Nat) : Nat := n / 4 * 3

/-! ## UUID -/

def hexChar (n : Nat) : Char := if n < 10 then Char.ofNat (48 + n) else Char.ofNat (97 + (n - 10))

def hexVal (c : Char) : Option Nat :=
  let n := c.toNat
  if 48 ≤ n ∧ n ≤ 57 then some (n - 48)
  else if 97 ≤ n ∧ n ≤ 102 then some (n - 97 + 10)
  else if 65 ≤ n ∧ n ≤ 70 then some (n - 65 + 10)
  else none

def hexByte (b : UInt8) : Str := [hexChar (b.toNat / 16), hexChar (b.toNat % 16)]

def hexBytes : List UInt8 → Str
  | [] => []
  | b :: bs => hexByte b ++ hexBytes bs

/-- pairs of hexadecimal digits -/
def unhexBytes : Str → Option (List UInt8)
  | [] => some []
  | a :: b :: rest =>
    match hexVal a, hexVal b, unhexBytes rest with
    | some x, some y, some bs => some (UInt8.ofNat (x * 16 + y) :: bs)
    | _, _, _ => none
  | _ => none

/-- `uuid.UUID.MarshalText`: `xxxxxxxx-xxxx-xxxx-xxxx-xxxxxxxxxxxx` in lower case -/
def uuidText (b : List UInt8) : Str :=
  hexBytes (b.take 4) ++ '-' :: hexBytes ((b.drop 4).take 2) ++ '-' :: hexBytes ((b.drop 6).take 2)
    ++ '-' :: hexBytes ((b.drop 8).take 2) ++ '-' :: hexBytes ((b.drop 10).take 6)

/-- the 36 character form -/
def parseUUID36 (s : Str) : Option (List UInt8) :=
  if s[8]? = some '-' ∧ s[13]? = some '-' ∧ s[18]? = some '-' ∧ s[23]? = some '-' then
    unhexBytes (s.take 8 ++ (s.drop 9).take 4 ++ (s.drop 14).take 4 ++ (s.drop 19).take 4
      ++ (s.drop 24).take 12)
  else none

def lowerChar (c : Char) : Char :=
  if 65 ≤ c.toNat ∧ c.toNat ≤ 90 then Char.ofNat (c.toNat + 32) else c

/-- `uuid.ParseBytes`: 36 characters, `urn:uuid:` form, a form in braces (the braces are
not looked at), and 32 hexadecimal digits.  The Go code counts bytes.  All bytes but the two
braces are compared with ASCII characters, and a character of several bytes does not fit into one
of the braces, so a text with characters that are not ASCII is always refused. -/
def parseUUID (s : Str) : Option (List UInt8) :=
  if s.any (fun c => 128 ≤ c.toNat) then none
  else if s.length = 36 then parseUUID36 s
  else if s.length = 45 then
    if (s.take 9).map lowerChar = str "urn:uuid:" then parseUUID36 (s.drop 9) else none
  else if s.length = 38 then parseUUID36 ((s.drop 1).take 36)
  else if s.length = 32 then unhexBytes s
  else none

/-! ## date-time layouts -/

/-- the layouts tried by `parseDateTime`, in order (valyjson_utils.go.tpl:54-67) -/
def knownLayouts : List Str :=
  [ str "2006-01-02T15:04:05.999999999Z07:00", str "2006-01-02T15:04:05Z07:00",
    str "2006-01-02 15:04:05Z07:00", str "02.01.2006 15:04:05Z07:00" ]

/-- first layout that parses -/
def firstParse [Ext] (s : Str) : List Str → Option Time
  | [] => none
  | l :: ls =>
    match Ext.parseTime l s with
    | some t => some t
    | none => firstParse s ls

/-- `parseDateTime` (valyjson_utils.go.tpl:54-67) -/
def parseDateTime [Ext] (s : Str) : Option Time := firstParse s knownLayouts

/-- constants of package time that a layout tag can name -/
def timeConst (s : Str) : Option Str :=
  (([ ("Layout", "01/02 03:04:05PM '06 -0700"), ("ANSIC", "Mon Jan _2 15:04:05 2006"),
      ("UnixDate", "Mon Jan _2 15:04:05 MST 2006"), ("RubyDate", "Mon Jan 02 15:04:05 -0700 2006"),
      ("RFC822", "02 Jan 06 15:04 MST"), ("RFC822Z", "02 Jan 06 15:04 -0700"),
      ("RFC850", "Monday, 02-Jan-06 15:04:05 MST"), ("RFC1123", "Mon, 02 Jan 2006 15:04:05 MST"),
      ("RFC1123Z", "Mon, 02 Jan 2006 15:04:05 -0700"), ("RFC3339", "2006-01-02T15:04:05Z07:00"),
      ("RFC3339Nano", "2006-01-02T15:04:05.999999999Z07:00"), ("Kitchen", "3:04PM"),
      ("Stamp", "Jan _2 15:04:05"), ("StampMilli", "Jan _2 15:04:05.000"),
      ("StampMicro", "Jan _2 15:04:05.000000"), ("StampNano", "Jan _2 15:04:05.000000000"),
      ("DateTime", "2006-01-02 15:04:05"), ("DateOnly", "2006-01-02"), ("TimeOnly", "15:04:05") ]
    : List (String × String)).find? fun p => str p.1 == s).map fun p => str p.2

end VJ
