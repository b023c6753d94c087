import Verif.Spec.Api
import Verif.Spec.Struct

/-!
# A sample package, used to show that hypotheses of theorems can be met
-/

namespace VJ.Sample

/-- some implementation of the functions that are left abstract -/
@[instance_reducible] def ext : Ext where
  parseFloat s := (parseNat s).map UInt64.ofNat
  fmtFloat f :=
    if f &&& 0x7FF0000000000000 = 0x7FF0000000000000 then
      if f = 0x7FF0000000000000 then str "+Inf" else if f = 0xFFF0000000000000 then str "-Inf" else str "NaN"
    else natStr f.toNat
  gtMaxFloat32 f := f.toNat > 1000000
  toFloat32 f := f
  parseTime _ s := match s with
    | 'T' :: ds => (parseInt ds).map fun i => ⟨i, 0⟩
    | _ => none
  fmtTime _ t := 'T' :: intStr t.ns
  timeText t := some ('T' :: intStr t.ns)

def tag (name : String) : Tags := { jsonName := str name }
def tagOpt (name opt : String) : Tags := { jsonName := str name, appendix := str opt }
def tagDef (name dflt : String) : Tags := { jsonName := str name, dflt := str dflt }

/-- type User struct { ID int8 `json:"id,required"`; Name string `json:"name"`;
Note *string `json:"note"`; Tags []string `json:"tags"`; Level int `json:"level" default:"7"`;
Secret string `json:"-"` } -/
def user : List FieldDecl :=
  [ ⟨.prim .int8, tagOpt "id" "required"⟩, ⟨.prim .string, tag "name"⟩, ⟨.star (.prim .string), tag "note"⟩,
    ⟨.slice (.prim .string), tag "tags"⟩, ⟨.prim .int, tagDef "level" "7"⟩, ⟨.prim .string, tag "-"⟩ ]

/-- type Base struct { Rev uint16 `json:"rev"` } -/
def base : List FieldDecl := [⟨.prim .uint16, tag "rev"⟩]

/-- type Doc struct { Base; Owner User `json:"owner"`; When time.Time `json:"when"` } -/
def doc : List FieldDecl := [⟨.named 2, {}⟩, ⟨.named 0, tag "owner"⟩, ⟨.time, tag "when"⟩]

/-- type Blob []byte; type Holder struct { Blob Blob `json:"blob"` } -/
def holder : List FieldDecl := [⟨.named 4, tag "blob"⟩]

/-- type Temp int8; type Warm Temp -/
def temp : TExpr := .named 20
def warm : TExpr := .named 21

/-- type Nums struct { A int8 `json:"a"`; B uint16 `json:"b"`; C int64 `json:"c"`; P *int8 `json:"p"`;
T Temp `json:"t"`; W Warm `json:"w"` } -/
def nums : List FieldDecl :=
  [⟨.prim .int8, tag "a"⟩, ⟨.prim .uint16, tag "b"⟩, ⟨.prim .int64, tag "c"⟩, ⟨.star (.prim .int8), tag "p"⟩,
   ⟨temp, tag "t"⟩, ⟨warm, tag "w"⟩]

/-- type Bag struct { L []int8 `json:"l"`; M map[string]int8 `json:"m"`; F [2]int8 `json:"f"`;
P []*int8 `json:"p"`; S []Base `json:"s"`; Q map[string]*Base `json:"q"`; N [][]int8 `json:"n"` } -/
def bag : List FieldDecl :=
  [⟨.slice (.prim .int8), tag "l"⟩, ⟨.map (.prim .int8), tag "m"⟩, ⟨.array 2 (.prim .int8), tag "f"⟩,
   ⟨.slice (.star (.prim .int8)), tag "p"⟩, ⟨.slice (.named 2), tag "s"⟩, ⟨.map (.star (.named 2)), tag "q"⟩,
   ⟨.slice (.slice (.prim .int8)), tag "n"⟩]

/-- type Trip struct { Base; T Temp `json:"t"`; L []Base `json:"l"`; M map[string]int8 `json:"m,omitempty"`; ID uuid.UUID `json:"id"`;
Blob Blob `json:"blob"`; When time.Time `json:"when"`; N *string `json:"n,omitempty"`; Q map[string]*Base `json:"q"` } -/
def trip : List FieldDecl :=
  [⟨.named 2, {}⟩, ⟨temp, tag "t"⟩, ⟨.slice (.named 2), tag "l"⟩, ⟨.map (.prim .int8), tagOpt "m" "omitempty"⟩, ⟨.uuid, tag "id"⟩,
   ⟨.named 4, tag "blob"⟩, ⟨.time, tag "when"⟩, ⟨.star (.prim .string), tagOpt "n" "omitempty"⟩, ⟨.map (.star (.named 2)), tag "q"⟩]

/-- type Node struct { V int8 `json:"v"`; Next *Node `json:"next"`; Kids []*Node `json:"kids"`; Tag *Name `json:"tag,omitempty"`;
I Ints `json:"i,omitempty"`; D map[string]Base `json:"d"`; P [2]Temp `json:"p"`; ID uuid.UUID `json:"id"`; B Base `json:"b"`;
Blob []byte `json:"blob"`; On bool `json:"on"`; L int64 `json:"l" default:"7"` } -/
def node : List FieldDecl :=
  [⟨.prim .int8, tag "v"⟩, ⟨.star (.named 55), tag "next"⟩, ⟨.slice (.star (.named 55)), tag "kids"⟩,
   ⟨.star (.named 38), tagOpt "tag" "omitempty"⟩, ⟨.named 24, tagOpt "i" "omitempty"⟩, ⟨.map (.named 2), tag "d"⟩,
   ⟨.array 2 (.named 20), tag "p"⟩, ⟨.uuid, tag "id"⟩, ⟨.named 2, tag "b"⟩, ⟨.slice (.prim .byte), tag "blob"⟩, ⟨.prim .bool, tag "on"⟩,
   ⟨.prim .int64, tagDef "l" "7"⟩]

/-- 0 User, 1 Account (strict, same fields as User), 2 Base, 3 Doc, 4 Blob, 5 Holder,
10…15 types with a single one of the fields of User, 20 Temp, 21 Warm, 22 Nums, 23 Bag,
24 type Ints []int16, 25 type Pair [2]int16, 26 type Dict map[string]*Base, 27 type Key [4]byte,
28 struct { Times []time.Time `json:"times"` }, 29 struct { Key [4]byte `json:"key"` },
30 struct { L []int8 `json:"l"` }, 31 struct { M map[string]int8 `json:"m"` }, 32 struct { A int8 `json:"a"` },
33 type Again Base, 34 struct { F [2]int8 `json:"f"` }, 35 struct { B *Base `json:"b"` }, 36 struct { ID uuid.UUID `json:"id"` }, 37 type ID uuid.UUID,
38 type Name string, 39 type Stamp time.Time, 40 type Bases [2]Base,
41 struct { A *int8 `json:"a"`; B int8 `json:"b"` }, 42 struct { Deep }, 43 Deep: struct { P **int8 `json:"p,omitempty"` },
44 struct { ID uuid.UUID `json:"id,omitempty"`; F [2]int8 `json:"f,omitempty"`; P **int8 `json:"p,omitempty"`; N string `json:"n,omitempty"` },
45 struct { T *time.Time `json:"t"` }, 46 type Grid [][]int8, 47 struct {}, 48 struct { U *uuid.UUID `json:"u"` },
49 struct { A *int8 `json:"a,omitempty"`; B string `json:"b,omitempty"`; L []int8 `json:"l,omitempty"`; S Base `json:"s,omitempty"`;
  M map[string]int8 `json:"m"` }, 50 Trip, 51 struct { A int8 `json:"a,omitempty" default:"7"` }, 52 struct { I Ints `json:"i"` },
53 struct { N [][]int8 `json:"n"` }, 54 struct { L []Base `json:"l"` }, 55 Node -/
def Γ : Env where
  decl n := match n with
    | 0 => some (.struct false user)
    | 1 => some (.struct true user)
    | 2 => some (.struct false base)
    | 3 => some (.struct false doc)
    | 4 => some (.alias (.slice (.prim .byte)))
    | 5 => some (.struct false holder)
    | 10 => some (.struct false [⟨.prim .int8, tagOpt "id" "required"⟩])
    | 11 => some (.struct false [⟨.prim .string, tag "name"⟩])
    | 12 => some (.struct false [⟨.star (.prim .string), tag "note"⟩])
    | 13 => some (.struct false [⟨.slice (.prim .string), tag "tags"⟩])
    | 14 => some (.struct false [⟨.prim .int, tagDef "level" "7"⟩])
    | 15 => some (.struct false [⟨.prim .string, tag "-"⟩])
    | 20 => some (.alias (.prim .int8))
    | 21 => some (.alias (.named 20))
    | 22 => some (.struct false nums)
    | 23 => some (.struct false bag)
    | 24 => some (.alias (.slice (.prim .int16)))
    | 25 => some (.alias (.array 2 (.prim .int16)))
    | 26 => some (.alias (.map (.star (.named 2))))
    | 27 => some (.alias (.array 4 (.prim .byte)))
    | 28 => some (.struct false [⟨.slice .time, tag "times"⟩])
    | 29 => some (.struct false [⟨.array 4 (.prim .byte), tag "key"⟩])
    | 30 => some (.struct false [⟨.slice (.prim .int8), tag "l"⟩])
    | 31 => some (.struct false [⟨.map (.prim .int8), tag "m"⟩])
    | 32 => some (.struct false [⟨.prim .int8, tag "a"⟩])
    | 33 => some (.alias (.named 2))
    | 34 => some (.struct false [⟨.array 2 (.prim .int8), tag "f"⟩])
    | 35 => some (.struct false [⟨.star (.named 2), tag "b"⟩])
    | 36 => some (.struct false [⟨.uuid, tag "id"⟩])
    | 37 => some (.alias .uuid)
    | 38 => some (.alias (.prim .string))
    | 39 => some (.alias .time)
    | 40 => some (.alias (.array 2 (.named 2)))
    | 41 => some (.struct false [⟨.star (.prim .int8), tag "a"⟩, ⟨.prim .int8, tag "b"⟩])
    | 42 => some (.struct false [⟨.named 43, {}⟩])
    | 43 => some (.struct false [⟨.star (.star (.prim .int8)), tagOpt "p" "omitempty"⟩])
    | 44 => some (.struct false [⟨.uuid, tagOpt "id" "omitempty"⟩, ⟨.array 2 (.prim .int8), tagOpt "f" "omitempty"⟩,
        ⟨.star (.star (.prim .int8)), tagOpt "p" "omitempty"⟩, ⟨.prim .string, tagOpt "n" "omitempty"⟩])
    | 45 => some (.struct false [⟨.star .time, tag "t"⟩])
    | 46 => some (.alias (.slice (.slice (.prim .int8))))
    | 47 => some (.struct false [])
    | 48 => some (.struct false [⟨.star .uuid, tag "u"⟩])
    | 49 => some (.struct false [⟨.star (.prim .int8), tagOpt "a" "omitempty"⟩, ⟨.prim .string, tagOpt "b" "omitempty"⟩,
        ⟨.slice (.prim .int8), tagOpt "l" "omitempty"⟩, ⟨.named 2, tagOpt "s" "omitempty"⟩, ⟨.map (.prim .int8), tag "m"⟩])
    | 50 => some (.struct false trip)
    | 51 => some (.struct false [⟨.prim .int8, { jsonName := str "a", appendix := str "omitempty", dflt := str "7" }⟩])
    | 52 => some (.struct false [⟨.named 24, tag "i"⟩])
    | 53 => some (.struct false [⟨.slice (.slice (.prim .int8)), tag "n"⟩])
    | 54 => some (.struct false [⟨.slice (.named 2), tag "l"⟩])
    | 55 => some (.struct false node)
    | 60 => some (.alias (.named 21))
    | 61 => some (.alias (.named 24))
    | 62 => some (.alias (.named 33))
    | 63 => some (.alias (.named 39))
    | 64 => some (.alias (.named 4))
    | 65 => some (.alias (.named 25))
    | 66 => some (.alias (.named 26))
    | 67 => some (.alias (.slice (.named 2)))
    | 68 => some (.alias (.named 67))
    | _ => none
  ext _ := .unsupp

/-- the single-field types of User -/
theorem user_single : ∀ (i : Nat) (fd : FieldDecl), user[i]? = some fd → Γ.decl (10 + i) = some (.struct false [fd]) := by
  intro i fd h
  match i with
  | 0 | 1 | 2 | 3 | 4 | 5 => simp [user] at h; subst h; rfl
  | i + 6 => simp [user] at h

/-- {"id":5,"name":"ann","tags":["x","y"]} -/
def ann : JV := .obj [(str "id", .num (str "5")), (str "name", .str (str "ann")),
  (str "tags", .arr [.str (str "x"), .str (str "y")])]

/-- a receiver that was used before -/
def used : GoVal := .struct [.int 1, .str (str "old"), .ptr (.str (str "n")), .slice [.str (str "q")] [.str (str "r")],
  .int 3, .str (str "s3cret")]

def annDecoded : GoVal := .struct [.int 5, .str (str "ann"), .ptr (.str (str "n")), .slice [.str (str "x"), .str (str "y")] [],
  .int 7, .str (str "s3cret")]

attribute [local instance] ext

set_option maxRecDepth 20000 in
/-- the sample document decodes -/
theorem ann_fills : Fills Γ 0 ann used none annDecoded := ⟨5, rfl⟩

end VJ.Sample
