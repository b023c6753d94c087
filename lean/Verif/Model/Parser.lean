import Verif.Model.Methods

/-!
# JSON text to documents (github.com/valyala/fastjson `Parser.ParseBytes`), and `UnmarshalJSON`

fastjson is third-party code and not part of the repository; it is modelled from its
published behaviour (parser.go of v1.6).  Texts are sequences of characters, not bytes.
-/

namespace VJ

/-- `skipWS` -/
def isWs (c : Char) : Bool := c = ' ' || c = '\n' || c = '\t' || c = '\r'

def skipWs : Str → Str
  | [] => []
  | c :: cs => if isWs c then skipWs cs else c :: cs

/-- `parseRawString`, after the opening quote: the raw text up to the closing quote, and the
rest.  A quote closes the literal when an even number of backslashes stands before it; `esc`
is the parity of the backslashes just read. -/
def rawString : Bool → Str → Option (Str × Str)
  | _, [] => none
  | esc, c :: cs =>
    if c = '"' ∧ esc = false then some ([], cs)
    else match rawString (c = '\\' && !esc) cs with
      | some (r, rest) => some (c :: r, rest)
      | none => none

/-- `strconv.ParseUint(xs, 16, 16)` on four characters -/
def hex4 (a b c d : Char) : Option Nat :=
  match hexVal a, hexVal b, hexVal c, hexVal d with
  | some x, some y, some z, some w => some (x * 4096 + y * 256 + z * 16 + w)
  | _, _, _, _ => none

/-- `utf16.IsSurrogate` -/
def isSurrogate (x : Nat) : Bool := 0xD800 ≤ x && x < 0xE000

/-- `utf16.DecodeRune` -/
def decodeRune (x y : Nat) : Char :=
  if 0xD800 ≤ x ∧ x < 0xDC00 ∧ 0xDC00 ≤ y ∧ y < 0xE000 then
    Char.ofNat ((x - 0xD800) * 1024 + (y - 0xDC00) + 0x10000)
  else Char.ofNat 0xFFFD

/-- the character an escape other than `\u` stands for -/
def simpleEsc (c : Char) : Option Char :=
  if c = '"' then some '"'
  else if c = '\\' then some '\\'
  else if c = '/' then some '/'
  else if c = 'b' then some (Char.ofNat 8)
  else if c = 'f' then some (Char.ofNat 12)
  else if c = 'n' then some '\n'
  else if c = 'r' then some '\r'
  else if c = 't' then some '\t'
  else none

/-- `unescapeStringBestEffort`: wrong escapes are kept as they are.  `fuel` is any number
above the length. -/
def unescape : Nat → Str → Str
  | 0, _ => []
  | _ + 1, [] => []
  | fuel + 1, c :: cs =>
    if c ≠ '\\' then c :: unescape fuel cs
    else match cs with
      | [] => []
      | e :: rest =>
        if e = 'u' then
          match rest with
          | h1 :: h2 :: h3 :: h4 :: tail =>
            match hex4 h1 h2 h3 h4 with
            | none => '\\' :: 'u' :: unescape fuel rest
            | some x =>
              if isSurrogate x then
                match tail with
                | '\\' :: 'u' :: k1 :: k2 :: k3 :: k4 :: tail' =>
                  match hex4 k1 k2 k3 k4 with
                  | none => '\\' :: 'u' :: h1 :: h2 :: h3 :: h4 :: unescape fuel tail
                  | some y => decodeRune x y :: unescape fuel tail'
                | _ => '\\' :: 'u' :: h1 :: h2 :: h3 :: h4 :: unescape fuel tail
              else Char.ofNat x :: unescape fuel tail
          | _ => '\\' :: 'u' :: unescape fuel rest
        else match simpleEsc e with
          | some d => d :: unescape fuel rest
          | none => '\\' :: e :: unescape fuel rest

def unescapeStr (s : Str) : Str := unescape (s.length + 1) s

def isNumChar (c : Char) : Bool :=
  isDigit c || c = '.' || c = '-' || c = 'e' || c = 'E' || c = '+'

/-- the longest run of number characters, and the rest -/
def spanNum : Str → Str × Str
  | [] => ([], [])
  | c :: cs => if isNumChar c then let r := spanNum cs; (c :: r.1, r.2) else ([], c :: cs)

/-- `strings.EqualFold(xs, "inf") || strings.EqualFold(xs, "nan")` -/
def isInfNan (a b c : Char) : Bool :=
  let l := [lowerChar a, lowerChar b, lowerChar c]
  l == str "inf" || l == str "nan"

/-- `parseRawNumber` -/
def rawNumber (s : Str) : Option (Str × Str) :=
  match spanNum s with
  | (ns, []) => some (ns, [])
  | (ns, c :: rest) =>
    if ns = [] ∨ ns = ['-'] ∨ ns = ['+'] then
      match c :: rest with
      | a :: b :: d :: tail => if isInfNan a b d then some (ns ++ [a, b, d], tail) else none
      | _ => none
    else some (ns, c :: rest)

/-- `strings.HasPrefix` and the rest -/
def stripPrefix : Str → Str → Option Str
  | [], s => some s
  | _ :: _, [] => none
  | p :: ps, c :: cs => if p = c then stripPrefix ps cs else none

/-- Why parsing stopped. -/
inductive PErr where
  | bad
  /-- the bound on recursive calls was reached; it never is (`Proof/Parser.lean`) -/
  | fuel
deriving DecidableEq, Repr

/-- `null`, or `nan` in any case, after the first character -/
def parseNull (cs : Str) : Except PErr (JV × Str) :=
  match stripPrefix (str "ull") cs with
  | some rest => .ok (.null, rest)
  | none =>
    match cs with
    | a :: b :: rest => if lowerChar a = 'a' ∧ lowerChar b = 'n' then .ok (.num ['n', a, b], rest) else .error .bad
    | _ => .error .bad

/-- `MaxDepth` -/
def maxDepth : Nat := 300

mutual
/-- `parseValue`; `d` is the depth still allowed.  Keys and strings are unescaped here, while
fastjson does it when they are first looked at.  (An end of text after an opening bracket is
found by the loops.) -/
def parseValue : Nat → Nat → Str → Except PErr (JV × Str)
  | 0, _, _ => .error .fuel
  | _ + 1, _, [] => .error .bad
  | _ + 1, 0, _ :: _ => .error .bad
  | fuel + 1, d + 1, c :: cs =>
    if c = '{' then
      if (skipWs cs).head? = some '}' then .ok (.obj [], (skipWs cs).tail)
      else match parseMembers fuel d (skipWs cs) with
        | .ok (kvs, rest) => .ok (.obj kvs, rest)
        | .error e => .error e
    else if c = '[' then
      if (skipWs cs).head? = some ']' then .ok (.arr [], (skipWs cs).tail)
      else match parseElems fuel d (skipWs cs) with
        | .ok (l, rest) => .ok (.arr l, rest)
        | .error e => .error e
    else if c = '"' then
      match rawString false cs with
      | some (r, rest) => .ok (.str (unescapeStr r), rest)
      | none => .error .bad
    else if c = 't' then
      match stripPrefix (str "rue") cs with
      | some rest => .ok (.bool true, rest)
      | none => .error .bad
    else if c = 'f' then
      match stripPrefix (str "alse") cs with
      | some rest => .ok (.bool false, rest)
      | none => .error .bad
    else if c = 'n' then parseNull cs
    else
      match rawNumber (c :: cs) with
      | some (ns, rest) => .ok (.num ns, rest)
      | none => .error .bad
/-- the loop of `parseArray` -/
def parseElems : Nat → Nat → Str → Except PErr (List JV × Str)
  | 0, _, _ => .error .fuel
  | fuel + 1, d, s =>
    match parseValue fuel d (skipWs s) with
    | .error e => .error e
    | .ok (v, rest) =>
      match skipWs rest with
      | ',' :: rest' =>
        match parseElems fuel d rest' with
        | .ok (l, rest'') => .ok (v :: l, rest'')
        | .error e => .error e
      | ']' :: rest' => .ok ([v], rest')
      | _ => .error .bad
/-- the loop of `parseObject` -/
def parseMembers : Nat → Nat → Str → Except PErr (List (Str × JV) × Str)
  | 0, _, _ => .error .fuel
  | fuel + 1, d, s =>
    match skipWs s with
    | '"' :: s1 =>
      match rawString false s1 with
      | none => .error .bad
      | some (k, s2) =>
        match skipWs s2 with
        | ':' :: s3 =>
          match parseValue fuel d (skipWs s3) with
          | .error e => .error e
          | .ok (v, rest) =>
            match skipWs rest with
            | ',' :: rest' =>
              match parseMembers fuel d rest' with
              | .ok (l, rest'') => .ok ((unescapeStr k, v) :: l, rest'')
              | .error e => .error e
            | '}' :: rest' => .ok ([(unescapeStr k, v)], rest')
            | _ => .error .bad
        | _ => .error .bad
    | _ => .error .bad
end

/-- `Parser.ParseBytes`; `none` is an error -/
def parseBytes (data : Str) : Option JV :=
  match parseValue (2 * data.length + 2) maxDepth (skipWs data) with
  | .ok (v, rest) => if skipWs rest = [] then some v else none
  | .error _ => none

/-- `UnmarshalJSON` (codegen/codegen.go:31-64), given the method `FillFromJSON` -/
def unmarshalJSON (m : Methods) (data : Str) (s : GoVal) : Out (Option Err × GoVal) :=
  match parseBytes data with
  | none => .ok (some (.plain .notJSON), s)
  | some v => m.fill v s

end VJ
