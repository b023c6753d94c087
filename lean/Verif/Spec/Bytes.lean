import Verif.Model.Bytes

/-!
# Characters and bytes
-/

namespace VJ

/-- The bytes of a text in UTF-8 (by the definition in Lean's library). -/
def utf8 (s : Str) : Bytes := s.flatMap String.utf8EncodeChar

/-- The bytes are UTF-8. -/
def ValidUtf8 (b : Bytes) : Prop := ∃ s, b = utf8 s

/-- The text the bytes stand for, if every byte at which no character begins is replaced by U+FFFD. -/
inductive Mended : Bytes → Str → Prop
  | nil : Mended [] []
  | char {c : Char} {b : Bytes} {s : Str} (h : Mended b s) : Mended (String.utf8EncodeChar c ++ b) (c :: s)
  | bad {x : UInt8} {b : Bytes} {s : Str} (hx : ¬ ∃ c r, x :: b = String.utf8EncodeChar c ++ r) (h : Mended b s) :
      Mended (x :: b) (Char.ofNat 0xFFFD :: s)

mutual
/-- The document with its texts in UTF-8. -/
def JV.utf8 : JV → BJV
  | .null => .null
  | .bool b => .bool b
  | .num raw => .num (VJ.utf8 raw)
  | .str s => .str (VJ.utf8 s)
  | .arr l => .arr (utf8L l)
  | .obj kvs => .obj (utf8KV kvs)
def JV.utf8L : List JV → List BJV
  | [] => []
  | v :: vs => v.utf8 :: utf8L vs
def JV.utf8KV : List (Str × JV) → List (Bytes × BJV)
  | [] => []
  | (k, v) :: kvs => (VJ.utf8 k, v.utf8) :: utf8KV kvs
end

mutual
/-- The same document, with every text mended. -/
inductive MendedV : BJV → JV → Prop
  | null : MendedV .null .null
  | bool (b : Bool) : MendedV (.bool b) (.bool b)
  | num {r : Bytes} {s : Str} (h : Mended r s) : MendedV (.num r) (.num s)
  | str {r : Bytes} {s : Str} (h : Mended r s) : MendedV (.str r) (.str s)
  | arr {l : List BJV} {m : List JV} (h : MendedL l m) : MendedV (.arr l) (.arr m)
  | obj {l : List (Bytes × BJV)} {m : List (Str × JV)} (h : MendedKV l m) : MendedV (.obj l) (.obj m)
inductive MendedL : List BJV → List JV → Prop
  | nil : MendedL [] []
  | cons {v : BJV} {w : JV} {l : List BJV} {m : List JV} (h : MendedV v w) (t : MendedL l m) : MendedL (v :: l) (w :: m)
inductive MendedKV : List (Bytes × BJV) → List (Str × JV) → Prop
  | nil : MendedKV [] []
  | cons {k : Bytes} {k' : Str} {v : BJV} {w : JV} {l : List (Bytes × BJV)} {m : List (Str × JV)} (hk : Mended k k') (h : MendedV v w)
      (t : MendedKV l m) : MendedKV ((k, v) :: l) ((k', w) :: m)
end

end VJ
