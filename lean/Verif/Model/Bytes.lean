import Verif.Model.Parser
import Verif.Model.Writer

/-!
# Texts as bytes

The rest of the model takes Go strings and JSON texts for sequences of characters.  Here are the
parts of the libraries that look at single bytes once more, on bytes: `fastjson.Parser.ParseBytes`, as in
`Model/Parser.lean`, and `jwriter.Writer.String`, as in `Model/Writer.lean`.
-/

namespace VJ

abbrev Bytes := List UInt8

/-- the byte as an ASCII character; other bytes give characters that are not ASCII -/
def bch (b : UInt8) : Char := Char.ofNat b.toNat

/-- the byte of an ASCII character -/
def cbyte (c : Char) : UInt8 := UInt8.ofNat c.toNat

/-- the bytes of an ASCII text -/
def lit (s : Str) : Bytes := s.map cbyte

/-! ## UTF-8 -/

/-- `string(r)` for a rune `r` -/
def runeBytes (c : Char) : Bytes :=
  let n := c.toNat
  if n < 0x80 then [UInt8.ofNat n]
  else if n < 0x800 then [UInt8.ofNat (0xC0 + n / 64), UInt8.ofNat (0x80 + n % 64)]
  else if n < 0x10000 then
    [UInt8.ofNat (0xE0 + n / 4096), UInt8.ofNat (0x80 + n / 64 % 64), UInt8.ofNat (0x80 + n % 64)]
  else
    [UInt8.ofNat (0xF0 + n / 262144), UInt8.ofNat (0x80 + n / 4096 % 64), UInt8.ofNat (0x80 + n / 64 % 64),
      UInt8.ofNat (0x80 + n % 64)]

/-- a byte between two bounds -/
def between (lo hi : Nat) (b : UInt8) : Bool := lo ≤ b.toNat && b.toNat ≤ hi

/-- `utf8.DecodeRune` of a text that is not empty: the rune and its width; `none` is `(RuneError, 1)`. -/
def decodeRune8 : Bytes → Option (Char × Nat)
  | [] => none
  | b :: bs =>
    let n := b.toNat
    if n < 0x80 then some (Char.ofNat n, 1)
    else if n < 0xC2 then none
    else if n < 0xE0 then
      match bs with
      | x :: _ => if between 0x80 0xBF x then some (Char.ofNat ((n - 0xC0) * 64 + (x.toNat - 0x80)), 2) else none
      | _ => none
    else if n < 0xF0 then
      match bs with
      | x :: y :: _ =>
        if between (if n = 0xE0 then 0xA0 else 0x80) (if n = 0xED then 0x9F else 0xBF) x && between 0x80 0xBF y then
          some (Char.ofNat ((n - 0xE0) * 4096 + (x.toNat - 0x80) * 64 + (y.toNat - 0x80)), 3)
        else none
      | _ => none
    else if n < 0xF5 then
      match bs with
      | x :: y :: z :: _ =>
        if between (if n = 0xF0 then 0x90 else 0x80) (if n = 0xF4 then 0x8F else 0xBF) x && between 0x80 0xBF y &&
            between 0x80 0xBF z then
          some (Char.ofNat ((n - 0xF0) * 262144 + (x.toNat - 0x80) * 4096 + (y.toNat - 0x80) * 64 + (z.toNat - 0x80)), 4)
        else none
      | _ => none
    else none

/-! ## `jwriter.Writer.String` -/

/-- The loop of `Writer.String`.  `fuel` is any number above the length. -/
def bEsc : Nat → Bytes → Bytes
  | 0, _ => []
  | _ + 1, [] => []
  | fuel + 1, b :: bs =>
    if b.toNat < 0x80 then lit (escChar (bch b)) ++ bEsc fuel bs
    else match decodeRune8 (b :: bs) with
      | none => lit (str "\\ufffd") ++ bEsc fuel bs
      | some (c, w) =>
        if c.toNat = 0x2028 ∨ c.toNat = 0x2029 then
          lit (str "\\u202") ++ lit [hexChar (c.toNat % 16)] ++ bEsc fuel ((b :: bs).drop w)
        else (b :: bs).take w ++ bEsc fuel ((b :: bs).drop w)

/-- `Writer.String` -/
def bJsonStr (s : Bytes) : Bytes := lit ['"'] ++ bEsc (s.length + 1) s ++ lit ['"']

/-! ## `fastjson.Parser.ParseBytes` -/

/-- A parsed JSON value whose texts are bytes. -/
inductive BJV where
  | null
  | bool (b : Bool)
  | num (raw : Bytes)
  | str (s : Bytes)
  | arr (l : List BJV)
  | obj (kvs : List (Bytes × BJV))

/-- `skipWS` -/
def bSkipWs : Bytes → Bytes
  | [] => []
  | b :: bs => if isWs (bch b) then bSkipWs bs else b :: bs

/-- see `rawString` -/
def bRawString : Bool → Bytes → Option (Bytes × Bytes)
  | _, [] => none
  | esc, b :: bs =>
    if bch b = '"' ∧ esc = false then some ([], bs)
    else match bRawString (bch b = '\\' && !esc) bs with
      | some (r, rest) => some (b :: r, rest)
      | none => none

/-- see `hex4` -/
def bHex4 (a b c d : UInt8) : Option Nat := hex4 (bch a) (bch b) (bch c) (bch d)

/-- the second half of a pair of `\u` escapes, with the rest behind it -/
def bLowHalf : Bytes → Option (Nat × Bytes)
  | b :: u :: k1 :: k2 :: k3 :: k4 :: tail =>
    if bch b = '\\' ∧ bch u = 'u' then
      match bHex4 k1 k2 k3 k4 with
      | some y => some (y, tail)
      | none => none
    else none
  | _ => none

/-- see `unescape` -/
def bUnescape : Nat → Bytes → Bytes
  | 0, _ => []
  | _ + 1, [] => []
  | fuel + 1, b :: bs =>
    if bch b ≠ '\\' then b :: bUnescape fuel bs
    else match bs with
      | [] => []
      | e :: rest =>
        if bch e = 'u' then
          match rest with
          | h1 :: h2 :: h3 :: h4 :: tail =>
            match bHex4 h1 h2 h3 h4 with
            | none => b :: e :: bUnescape fuel rest
            | some x =>
              if isSurrogate x then
                match bLowHalf tail with
                | some (y, tail') => runeBytes (decodeRune x y) ++ bUnescape fuel tail'
                | none => b :: e :: h1 :: h2 :: h3 :: h4 :: bUnescape fuel tail
              else runeBytes (Char.ofNat x) ++ bUnescape fuel tail
          | _ => b :: e :: bUnescape fuel rest
        else match simpleEsc (bch e) with
          | some d => cbyte d :: bUnescape fuel rest
          | none => b :: e :: bUnescape fuel rest

def bUnescapeStr (s : Bytes) : Bytes := bUnescape (s.length + 1) s

/-- see `spanNum` -/
def bSpanNum : Bytes → Bytes × Bytes
  | [] => ([], [])
  | b :: bs => if isNumChar (bch b) then let r := bSpanNum bs; (b :: r.1, r.2) else ([], b :: bs)

/-- `parseRawNumber`, see `rawNumber` -/
def bRawNumber (s : Bytes) : Option (Bytes × Bytes) :=
  match bSpanNum s with
  | (ns, []) => some (ns, [])
  | (ns, b :: rest) =>
    if ns = [] ∨ ns = [cbyte '-'] ∨ ns = [cbyte '+'] then
      match b :: rest with
      | x :: y :: z :: tail => if isInfNan (bch x) (bch y) (bch z) then some (ns ++ [x, y, z], tail) else none
      | _ => none
    else some (ns, b :: rest)

/-- `strings.HasPrefix` with an ASCII text, and the rest -/
def bStripPrefix : Str → Bytes → Option Bytes
  | [], s => some s
  | _ :: _, [] => none
  | p :: ps, b :: bs => if p = bch b then bStripPrefix ps bs else none

/-- see `parseNull`; `n` is the first byte -/
def bParseNull (n : UInt8) (bs : Bytes) : Except PErr (BJV × Bytes) :=
  match bStripPrefix (str "ull") bs with
  | some rest => .ok (.null, rest)
  | none =>
    match bs with
    | x :: y :: rest =>
      if lowerChar (bch x) = 'a' ∧ lowerChar (bch y) = 'n' then .ok (.num [n, x, y], rest) else .error .bad
    | _ => .error .bad

mutual
/-- `parseValue`, see there -/
def bParseValue : Nat → Nat → Bytes → Except PErr (BJV × Bytes)
  | 0, _, _ => .error .fuel
  | _ + 1, _, [] => .error .bad
  | _ + 1, 0, _ :: _ => .error .bad
  | fuel + 1, d + 1, b :: bs =>
    if bch b = '{' then
      if (bSkipWs bs).head?.map bch = some '}' then .ok (.obj [], (bSkipWs bs).tail)
      else match bParseMembers fuel d (bSkipWs bs) with
        | .ok (kvs, rest) => .ok (.obj kvs, rest)
        | .error e => .error e
    else if bch b = '[' then
      if (bSkipWs bs).head?.map bch = some ']' then .ok (.arr [], (bSkipWs bs).tail)
      else match bParseElems fuel d (bSkipWs bs) with
        | .ok (l, rest) => .ok (.arr l, rest)
        | .error e => .error e
    else if bch b = '"' then
      match bRawString false bs with
      | some (r, rest) => .ok (.str (bUnescapeStr r), rest)
      | none => .error .bad
    else if bch b = 't' then
      match bStripPrefix (str "rue") bs with
      | some rest => .ok (.bool true, rest)
      | none => .error .bad
    else if bch b = 'f' then
      match bStripPrefix (str "alse") bs with
      | some rest => .ok (.bool false, rest)
      | none => .error .bad
    else if bch b = 'n' then bParseNull b bs
    else
      match bRawNumber (b :: bs) with
      | some (ns, rest) => .ok (.num ns, rest)
      | none => .error .bad
/-- the loop of `parseArray` -/
def bParseElems : Nat → Nat → Bytes → Except PErr (List BJV × Bytes)
  | 0, _, _ => .error .fuel
  | fuel + 1, d, s =>
    match bParseValue fuel d (bSkipWs s) with
    | .error e => .error e
    | .ok (v, rest) =>
      match bSkipWs rest with
      | [] => .error .bad
      | b :: rest' =>
        if bch b = ',' then
          match bParseElems fuel d rest' with
          | .ok (l, rest'') => .ok (v :: l, rest'')
          | .error e => .error e
        else if bch b = ']' then .ok ([v], rest')
        else .error .bad
/-- the loop of `parseObject` -/
def bParseMembers : Nat → Nat → Bytes → Except PErr (List (Bytes × BJV) × Bytes)
  | 0, _, _ => .error .fuel
  | fuel + 1, d, s =>
    match bSkipWs s with
    | [] => .error .bad
    | q :: s1 =>
      if bch q = '"' then
        match bRawString false s1 with
        | none => .error .bad
        | some (k, s2) =>
          match bSkipWs s2 with
          | [] => .error .bad
          | c :: s3 =>
            if bch c = ':' then
              match bParseValue fuel d (bSkipWs s3) with
              | .error e => .error e
              | .ok (v, rest) =>
                match bSkipWs rest with
                | [] => .error .bad
                | b :: rest' =>
                  if bch b = ',' then
                    match bParseMembers fuel d rest' with
                    | .ok (l, rest'') => .ok ((bUnescapeStr k, v) :: l, rest'')
                    | .error e => .error e
                  else if bch b = '}' then .ok ([(bUnescapeStr k, v)], rest')
                  else .error .bad
            else .error .bad
      else .error .bad
end

/-- `Parser.ParseBytes`; `none` is an error -/
def bParseBytes (data : Bytes) : Option BJV :=
  match bParseValue (2 * data.length + 2) maxDepth (bSkipWs data) with
  | .ok (v, rest) => if bSkipWs rest = [] then some v else none
  | .error _ => none

end VJ
