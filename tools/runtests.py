#!/usr/bin/env python3
"""Run the unit tests of /repo against the model.

The Go tests are read as text and interpreted here; the methods of generated types
(UnmarshalJSON, MarshalJSON, IsZero, Reset) are answered by the model (Verif/Model: front end,
code generator, run semantics, JSON parser), which is run by Lean.  Tests that use language or
library features outside the little interpreter below, or types with hand-written methods, are
counted as skipped.

Usage: tools/runtests.py [-v] [/repo]     (needs a built Lake project)
"""
import json
import os
import struct
import subprocess
import sys
import tempfile

sys.path.insert(0, os.path.dirname(os.path.abspath(__file__)))
from conform import GoFile, LEAN, PRELUDE, tokens, lstr, llist, tdecl, expr

SERVER = r'''
/-! ### floats and times, for running -/

def pow10 : Nat → Nat := fun n => 10 ^ n

def readFloat (s : Str) : Option F64 :=
  match Lean.Json.parse (String.ofList s) with
  | .ok (.num n) => some (Float.ofScientific n.mantissa.natAbs true n.exponent |>
      (fun f => if n.mantissa < 0 then -f else f)).toBits
  | _ => none

def f32 (b : F64) : F64 := (Float.ofBits b).toFloat32.toFloat.toBits

def isDig (c : Char) : Bool := c.isDigit

/-- digits: exactly two, or one or two -/
def twoDigits (fixed : Bool) : Str → Option (Nat × Str)
  | a :: b :: r => if isDig a && isDig b then some ((a.toNat - 48) * 10 + (b.toNat - 48), r)
    else if isDig a && !fixed then some (a.toNat - 48, b :: r) else none
  | [a] => if isDig a && !fixed then some (a.toNat - 48, []) else none
  | [] => none

def daysFromCivil (y m d : Int) : Int :=
  let y := if m ≤ 2 then y - 1 else y
  let era := y / 400
  let yoe := y - era * 400
  let mp := (m + 9) % 12
  let doy := (153 * mp + 2) / 5 + d - 1
  let doe := yoe * 365 + yoe / 4 - yoe / 100 + doy
  era * 146097 + doe

def civil (z : Int) : Int × Int × Int :=
  let era := z / 146097
  let doe := z - era * 146097
  let yoe := (doe - doe / 1460 + doe / 36524 - doe / 146096) / 365
  let y := yoe + era * 400
  let doy := doe - (365 * yoe + yoe / 4 - yoe / 100)
  let mp := (5 * doy + 2) / 153
  let d := doy - (153 * mp + 2) / 5 + 1
  let m := if mp < 10 then mp + 3 else mp - 9
  (if m ≤ 2 then y + 1 else y, m, d)

structure TP where
  y : Nat := 1
  mo : Nat := 1
  d : Nat := 1
  h : Nat := 0
  mi : Nat := 0
  s : Nat := 0
  ns : Nat := 0
  off : Int := 0

def dim (y m : Nat) : Nat :=
  if m = 2 then (if y % 4 = 0 && (y % 100 != 0 || y % 400 = 0) then 29 else 28)
  else if m = 4 || m = 6 || m = 9 || m = 11 then 30 else 31

partial def readTime (l v : Str) (t : TP) : Option TP :=
  let lit (p : String) : Option Str := if (str p).isPrefixOf l then some (l.drop p.length) else none
  match lit "2006" with
  | some l' =>
    let ds := v.take 4
    if ds.length = 4 && ds.all isDig then readTime l' (v.drop 4) { t with y := (String.ofList ds).toNat! } else none
  | none =>
  match lit "01" with
  | some l' => (twoDigits true v).bind fun (n, r) => readTime l' r { t with mo := n }
  | none =>
  match lit "02" with
  | some l' => (twoDigits true v).bind fun (n, r) => readTime l' r { t with d := n }
  | none =>
  match lit "15" with
  | some l' => (twoDigits false v).bind fun (n, r) => readTime l' r { t with h := n }
  | none =>
  match lit "04" with
  | some l' => (twoDigits true v).bind fun (n, r) => readTime l' r { t with mi := n }
  | none =>
  match lit "05" with
  | some l' => (twoDigits true v).bind fun (n, r) =>
      match r with
      | '.' :: c :: _ =>
        if isDig c then
          let ds := (r.drop 1).takeWhile isDig
          let ns := (String.ofList ((ds ++ List.replicate 9 '0').take 9)).toNat!
          let l'' := if (str ".999999999").isPrefixOf l' then l'.drop 10 else l'
          readTime l'' (r.drop (1 + ds.length)) { t with s := n, ns := ns }
        else readTime l' r { t with s := n }
      | _ =>
        let l'' := if (str ".999999999").isPrefixOf l' then l'.drop 10 else l'
        readTime l'' r { t with s := n }
  | none =>
  match lit "Z07:00" with
  | some l' =>
    match v with
    | 'Z' :: r => readTime l' r t
    | c :: r =>
      if c = '+' || c = '-' then
        (twoDigits true r).bind fun (hh, r) =>
          match r with
          | ':' :: r => (twoDigits true r).bind fun (mm, r) =>
              readTime l' r { t with off := (if c = '-' then -1 else 1) * ((hh * 60 + mm) * 60 : Nat) }
          | _ => none
      else none
    | [] => none
  | none =>
    match l, v with
    | [], [] => some t
    | c :: l', d :: v' => if c = d then readTime l' v' t else none
    | _, _ => none

def parseT (l v : Str) : Option Time :=
  (readTime l v {}).bind fun t =>
    if t.mo < 1 || t.mo > 12 || t.d < 1 || t.d > dim t.y t.mo || t.h > 23 || t.mi > 59 || t.s > 59 then none
    else
      let days := daysFromCivil t.y t.mo t.d - daysFromCivil 1 1 1
      some ⟨(((days * 24 + t.h) * 60 + t.mi) * 60 + t.s - t.off) * 1000000000 + t.ns, t.off⟩

def pad (n : Nat) (x : Int) : Str :=
  let s := (toString x).toList
  List.replicate (n - s.length) '0' ++ s

partial def fmtT (l : Str) (t : Time) : Str :=
  let loc := t.ns + t.off * 1000000000
  let secs := loc / 1000000000
  let ns := loc % 1000000000
  let days := secs / 86400
  let rem := secs % 86400
  let (y, m, d) := civil (days + daysFromCivil 1 1 1)
  let rec go (l : Str) : Str :=
    let lit (p : String) : Option Str := if (str p).isPrefixOf l then some (l.drop p.length) else none
    match lit "2006" with
    | some r => pad 4 y ++ go r
    | none => match lit "01" with
    | some r => pad 2 m ++ go r
    | none => match lit "02" with
    | some r => pad 2 d ++ go r
    | none => match lit "15" with
    | some r => pad 2 (rem / 3600) ++ go r
    | none => match lit "04" with
    | some r => pad 2 (rem / 60 % 60) ++ go r
    | none => match lit "05" with
    | some r => pad 2 (rem % 60) ++ go r
    | none => match lit ".999999999" with
    | some r => (if ns = 0 then [] else '.' :: ((pad 9 ns).reverse.dropWhile (· = '0')).reverse) ++ go r
    | none => match lit "Z07:00" with
    | some r => (if t.off = 0 then ['Z'] else
        (if t.off < 0 then '-' else '+') :: (pad 2 (t.off.natAbs / 3600) ++ ':' :: pad 2 (t.off.natAbs / 60 % 60))) ++ go r
    | none => match l with
      | [] => []
      | c :: r => c :: go r
  go l

@[instance_reducible] def runExt : Ext where
  parseFloat := readFloat
  fmtFloat b := (toString (Float.ofBits b)).toList
  gtMaxFloat32 b := Float.ofBits b > Float.ofBits 0x47efffffe0000000
  toFloat32 := f32
  parseTime := parseT
  fmtTime := fmtT
  timeText t := some (fmtT (str "2006-01-02T15:04:05.999999999Z07:00") t)
attribute [-instance] conformExt
attribute [local instance] runExt

/-! ### values as JSON -/
open Lean (Json)

partial def toJ : GoVal → Json
  | .int i => Json.arr #["int", Json.num (Lean.JsonNumber.fromInt i)]
  | .float f => Json.arr #["float", Json.str (toString f.toNat)]
  | .bool b => Json.arr #["bool", b]
  | .str s => Json.arr #["str", Json.str (String.ofList s)]
  | .time t => Json.arr #["time", Json.num (Lean.JsonNumber.fromInt t.ns), Json.num (Lean.JsonNumber.fromInt t.off)]
  | .uuid b => Json.arr #["uuid", Json.arr (b.map (fun x => (Json.num (Lean.JsonNumber.fromNat x.toNat)))).toArray]
  | .nil => Json.arr #["nil"]
  | .ptr v => Json.arr #["ptr", toJ v]
  | .slice es sp => Json.arr #["slice", Json.arr (es.map toJ).toArray, Json.arr (sp.map toJ).toArray]
  | .arr es => Json.arr #["arr", Json.arr (es.map toJ).toArray]
  | .map kvs => Json.arr #["map", Json.arr (kvs.map (fun (k, v) => Json.arr #[Json.str (String.ofList k), toJ v])).toArray]
  | .bytes b => Json.arr #["bytes", Json.arr (b.map (fun x => (Json.num (Lean.JsonNumber.fromNat x.toNat)))).toArray]
  | .barr b => Json.arr #["barr", Json.arr (b.map (fun x => (Json.num (Lean.JsonNumber.fromNat x.toNat)))).toArray]
  | .struct fs => Json.arr #["struct", Json.arr (fs.map toJ).toArray]

def nats (j : Json) : Except String (List UInt8) := do
  let a ← j.getArr?
  let l ← a.toList.mapM fun x => x.getNat?
  return l.map (·.toUInt8)

partial def ofJ (j : Json) : Except String GoVal := do
  let a ← j.getArr?
  let at' (i : Nat) : Json := a.getD i Json.null
  match ← (at' 0).getStr? with
  | "int" => return .int (← (at' 1).getInt?)
  | "float" => return .float (← (at' 1).getStr?).toNat!.toUInt64
  | "bool" => return .bool (← (at' 1).getBool?)
  | "str" => return .str (← (at' 1).getStr?).toList
  | "time" => return .time ⟨← (at' 1).getInt?, ← (at' 2).getInt?⟩
  | "uuid" => return .uuid (← nats (at' 1))
  | "nil" => return .nil
  | "ptr" => return .ptr (← ofJ (at' 1))
  | "slice" => return .slice (← (← (at' 1).getArr?).toList.mapM ofJ) (← (← (at' 2).getArr?).toList.mapM ofJ)
  | "arr" => return .arr (← (← (at' 1).getArr?).toList.mapM ofJ)
  | "map" =>
    let kvs ← (← (at' 1).getArr?).toList.mapM fun e => do
      let p ← e.getArr?
      return ((← (p.getD 0 Json.null).getStr?).toList, ← ofJ (p.getD 1 Json.null))
    return .map kvs
  | "bytes" => return .bytes (← nats (at' 1))
  | "barr" => return .barr (← nats (at' 1))
  | "struct" => return .struct (← (← (at' 1).getArr?).toList.mapM ofJ)
  | s => throw s!"value {s}"

/-! ### packages -/

partial def exprJ : SrcExpr → Json
  | .ident n => Json.arr #["ident", Json.str (String.ofList n)]
  | .sel p n => Json.arr #["sel", Json.str (String.ofList p), Json.str (String.ofList n)]
  | .array none e => Json.arr #["array", Json.null, exprJ e]
  | .array (some n) e => Json.arr #["array", Json.num (Lean.JsonNumber.fromNat n), exprJ e]
  | .map e => Json.arr #["map", Json.null, exprJ e]
  | .star e => Json.arr #["star", exprJ e]
  | .other => Json.arr #["other"]

/-- As `Env.methods`, with the methods of types of other packages and of types without
generated methods from elsewhere, and the environment chosen as in tools/conform.py. -/
def meth (env : Nat → Env) (other : Nat → Option Methods) : Nat → Nat → Methods
  | 0, _ => .loop
  | k + 1, n =>
    match other n with
    | some m => m
    | none =>
      match (env n).decl n with
      | some d => declMethods (env n) k (meth env other k) d
      | none => noneM

structure Pack where
  methods : Nat → Methods
  fields : List (Str × List Str)

/-- several files of one package -/
def pack (pkgs : GetPackage) (files : List (List TypeDecl)) (stars : List (Str × SrcExpr))
    (ext : List (Str × List TypeDecl)) (others : List (Str × Pack)) : Pack := Id.run do
  let all := files.flatten
  let mut table : List (Nat × Decl) := []
  let mut own : List Nat := []
  let mut fields : List (Str × List Str) := []
  let mut wide : List Nat := []
  for file in files do
    match getNormalized pkgs 20 file with
    | .ok rs =>
      for s in fileSpecs file do
        match fullRenderer rs s.name with
        | some r =>
          match declOf (fun _ _ => .no) (fun _ => false) r s.typ with
          | .ok d =>
            table := (identId s.name, d) :: table
            match r.kind with
            | .struct fs => fields := (s.name, fs.flatMap goNames) :: fields
            | _ => pure ()
            match r.kind with
            | .struct _ | .array .. => wide := identId s.name :: wide
            | _ => pure ()
          | _ => pure ()
        | none =>
          own := identId s.name :: own
          match plainName s with
          | some p => table := (identId s.name, .alias (.prim p)) :: table
          | none =>
            match rs.find? (fun r => r.name = s.name) with
            | some r =>
              match declOf (fun _ _ => .no) (fun _ => false) r s.typ with
              | .ok d => table := (identId s.name, d) :: table
              | _ => pure ()
            | none =>
              match rawDecl s ((stars.lookup s.name).getD .other) with
              | some d => table := (identId s.name, d) :: table
              | none => pure ()
    | _ => pure ()
  let mut tableX := table
  let mut sels : List (Nat × Methods) := []
  for (p, f) in ext do
    for s in fileSpecs f do
      match rawDecl s .other with
      | some d => tableX := (selId p s.name, d) :: tableX
      | none => pure ()
      match others.lookup p with
      | some q => sels := (selId p s.name, q.methods (identId s.name)) :: sels
      | none => pure ()
  let t := table; let tx := tableX; let w := wide; let se := sels; let ow := own
  let env (n : Nat) : Env := ⟨fun m => if w.contains n then tx.lookup m else t.lookup m, fun _ => noneM⟩
  let plain (m : Nat) : Methods := match t.lookup m with
    | some (.alias (.prim p)) =>
      let M := declMethods (env m) 5 (fun _ => noneM) (.alias (.prim p))
      { noneM with zero := M.zero, conv := M.conv }
    | _ => noneM
  let other (m : Nat) : Option Methods :=
    match se.lookup m with
    | some x => some x
    | none => if ow.contains m then some (plain m) else none
  let ms := meth env other 40
  return ⟨ms, fields⟩

def causeJ (c : Cause) : Json :=
  let s (x : String) := Json.str x
  let l (x : Str) := Json.str (String.ofList x)
  let jt : JT → String := fun t => (toString (repr t))
  match c with
  | .wrongType w g => Json.arr #["wrongType", s (jt w), s (jt g)]
  | .badNumber r => Json.arr #["badNumber", l r]
  | .exceedsMax v => Json.arr #["exceedsMax", s (toString v)]
  | .exceedsMaxF _ => Json.arr #["exceedsMax", s "?"]
  | .required n => Json.arr #["required", l n]
  | .twice n => Json.arr #["twice", l n]
  | .unexpected n => Json.arr #["unexpected", l n]
  | .badTime n => Json.arr #["badTime", l n]
  | .badUUID n => Json.arr #["badUUID", l n]
  | .badBase64 n => Json.arr #["badBase64", l n]
  | .incomplete => Json.arr #["incomplete"]
  | .lenMismatch => Json.arr #["lenMismatch"]
  | .wrongCount w g => Json.arr #["wrongCount", s (toString w), s (toString g)]
  | .notJSON => Json.arr #["notJSON"]
  | .user n => Json.arr #["user", s (toString n)]

def errJ : Option Err → Json
  | none => Json.null
  | some e => Json.arr #[match e.path with | none => Json.null | some p => Json.str (String.ofList p), causeJ e.cause]

def outJ {α} (f : α → Json) : Out α → Json
  | .ok a => Json.arr #["ok", f a]
  | .panic => Json.arr #["panic"]
  | .loop => Json.arr #["loop"]
  | .unsupp => Json.arr #["unsupp"]

def answer (p : Pack) (line : String) : Except String Json := do
  let j ← Json.parse line
  let a ← j.getArr?
  let at' (i : Nat) : Json := a.getD i Json.null
  let op ← (at' 0).getStr?
  let n := (← (at' 1).getStr?).toList
  let m := p.methods (identId n)
  match op with
  | "fields" => return match p.fields.lookup n with
    | some fs => Json.arr (fs.map (fun x => Json.str (String.ofList x))).toArray
    | none => Json.null
  | "unmarshal" =>
    let v ← ofJ (at' 2)
    let t := (← (at' 3).getStr?).toList
    return outJ (fun (e, v) => Json.arr #[errJ e, toJ v]) (unmarshalJSON m t v)
  | "marshal" =>
    let r ← if (at' 2).isNull then pure none else some <$> ofJ (at' 2)
    return outJ (fun
      | Except.ok s => Json.arr #["ok", Json.str (String.ofList s)]
      | .error _ => Json.arr #["err"]) (marshalJSON m r)
  | "isZero" => return outJ (fun (b : Bool) => (b : Json)) (m.isZero (← ofJ (at' 2)))
  | "reset" => return outJ toJ (m.reset (← ofJ (at' 2)))
  | o => throw o

partial def serve (p : Pack) : IO Unit := do
  let stdin ← IO.getStdin
  let stdout ← IO.getStdout
  let line ← stdin.getLine
  if line.isEmpty then return
  match answer p line.trimAscii.toString with
  | .ok j => stdout.putStrLn j.compress
  | .error e => stdout.putStrLn (Json.arr #["bad", Json.str e]).compress
  stdout.flush
  serve p
'''


class Skip(Exception):
    """the test uses something the interpreter or the model does not have"""


class Failed(Exception):
    """an assertion of the test does not hold of the model"""


# ---- Go values: int, float, bool, str, None (nil), and

class Ptr:
    def __init__(self, get, put):
        self.get, self.put = get, put


class Struct:
    def __init__(self, typ, f):
        self.typ, self.f = typ, f


class Seq:
    """an array or a slice; `spare`: the cells between length and capacity; `cells`: the list
    of the cells that a slice shares with others"""

    def __init__(self, xs, fixed=False, spare=(), cells=None):
        self.xs, self.fixed, self.spare = xs, fixed, list(spare)
        self.cells = cells if cells is not None else self


class Time:
    def __init__(self, ns, off):
        self.ns, self.off = ns, off


class UUID:
    def __init__(self, b):
        self.b = b


class GoErr:
    def __init__(self, text, loose=False):
        self.text, self.loose = text, loose


class Untyped:
    def __init__(self, v):
        self.v = v


def box(v):
    cell = [v]
    return Ptr(lambda: cell[0], lambda x: cell.__setitem__(0, x))


def copy(v):
    if isinstance(v, Struct):
        return Struct(v.typ, {k: copy(x) for k, x in v.f.items()})
    if isinstance(v, Seq) and v.fixed:
        return Seq([copy(x) for x in v.xs], True)
    return v


def plain(v):
    """for comparing"""
    if isinstance(v, Untyped):
        return plain(v.v)
    if isinstance(v, Struct):
        return ("struct", tuple(sorted((k, plain(x)) for k, x in v.f.items())))
    if isinstance(v, Seq):
        return ("seq", tuple(plain(x) for x in v.xs))
    if isinstance(v, bytes):
        return ("seq", tuple(v))
    if isinstance(v, Time):
        return ("time", v.ns, v.off)
    if isinstance(v, UUID):
        return ("uuid", v.b)
    if isinstance(v, Ptr):
        return ("ptr", plain(v.get()))
    if isinstance(v, dict):
        return ("map", tuple(sorted((k, plain(x)) for k, x in v.items())))
    if isinstance(v, float) and abs(v) != float("inf") and v == int(v):
        return int(v)
    if v is None:
        return ("nil",)
    return v


INTS = {"int", "int8", "int16", "int32", "int64", "uint", "uint8", "uint16", "uint32", "uint64", "byte", "rune"}


class Types:
    """the types of a package and of the packages it imports"""

    def __init__(self, files, imported):
        self.decl = {}
        for g in files:
            for _, specs in g.decls:
                for n, t, _ in specs:
                    self.decl[n] = t
        self.imported = imported        # alias -> Types
        self.model = None

    def under(self, t):
        """-> (underlying type, the Types it is written in)"""
        if t[0] == "ident":
            if t[1] in self.decl:
                return self.under(self.decl[t[1]])
            return t, self
        if t[0] == "sel" and t[1] in self.imported:
            return self.imported[t[1]].under(("ident", t[2]))
        return t, self

    def fields(self, st):
        """[(name, type, embedded)]"""
        out = []
        for names, typ, _ in st[1]:
            if names:
                out += [(n, typ, False) for n in names]
            else:
                u = typ[1] if typ[0] == "star" else typ
                out.append((u[-1], typ, True))
        return out

    def zero(self, t):
        u, w = self.under(t)
        k = u[0]
        if k == "ident":
            if u[1] in INTS:
                return 0
            if u[1] in ("float32", "float64"):
                return 0.0
            if u[1] == "bool":
                return False
            if u[1] == "string":
                return ""
            if u[1] in ("any", "error"):
                return None
            raise Skip(f"type {u[1]}")
        if k == "sel":
            if u[1:] == ("time", "Time"):
                return Time(0, 0)
            if u[1:] == ("uuid", "UUID"):
                return UUID(bytes(16))
            raise Skip(f"type {u[1]}.{u[2]}")
        if k == "struct":
            return Struct((w, u), {n: w.zero(ft) for n, ft, _ in w.fields(u)})
        if k == "array" and u[1] is not None:
            if self.is_byte(w, u[2]):
                return bytes(u[1])
            return Seq([w.zero(u[2]) for _ in range(u[1])], True)
        if k in ("array", "map", "star", "other"):
            return None
        raise Skip(f"type {u}")

    @staticmethod
    def is_byte(w, t):
        return t in (("ident", "byte"), ("ident", "uint8"))

    def convert(self, v, t):
        """an untyped constant or a value, as a value of type t"""
        if isinstance(v, Untyped):
            v = v.v
            u, _ = self.under(t)
            if u[0] == "ident" and u[1] == "float32":
                return struct.unpack("f", struct.pack("f", v))[0]
            if u[0] == "ident" and u[1] == "float64":
                return float(v)
            if u[0] == "ident" and u[1] in INTS:
                return int(v)
        if isinstance(v, bytes) and self.under(t)[0] == ("sel", "uuid", "UUID"):
            return UUID(v)
        return copy(v)

    # -- to and from the model

    def to_model(self, v, t):
        u, w = self.under(t)
        k = u[0]
        if k == "ident":
            if u[1] in INTS:
                return ["int", v]
            if u[1] in ("float32", "float64"):
                return ["float", str(struct.unpack("Q", struct.pack("d", v))[0])]
            if u[1] == "bool":
                return ["bool", v]
            if u[1] == "string":
                return ["str", v]
            raise Skip(f"type {u[1]}")
        if k == "sel":
            if u[1:] == ("time", "Time"):
                return ["time", v.ns, v.off]
            if u[1:] == ("uuid", "UUID"):
                return ["uuid", list(v.b)]
            raise Skip("type of another package")
        if v is None:
            return ["nil"]
        if k == "struct":
            names = w.flat(t, u, self)
            return ["struct", [w.to_model(*w.promoted(v, u, n)) for n in names]]
        if k == "array":
            if self.is_byte(w, u[2]):
                return ["bytes" if u[1] is None else "barr", list(v)]
            xs = [w.to_model(x, u[2]) for x in v.xs]
            return ["slice", xs, [w.to_model(x, u[2]) for x in v.spare]] if u[1] is None else ["arr", xs]
        if k == "map":
            return ["map", [[key, w.to_model(x, u[2])] for key, x in v.items()]]
        if k == "star":
            return ["ptr", w.to_model(v.get(), u[1])]
        raise Skip(f"value of {u}")

    def flat(self, t, u, where):
        """the fields of a struct in the model"""
        w, n = where, t
        while True:
            if n[0] == "sel" and n[1] in w.imported:
                w, n = w.imported[n[1]], ("ident", n[2])
            if n[0] == "ident" and n[1] in w.decl:
                fs = w.model(["fields", n[1]])
                if fs is not None:
                    return fs
                n = w.decl[n[1]]
            else:
                raise Skip("struct without generated methods")

    def promoted(self, v, u, name):
        """the field of this name, through embedded structs: (value, type)"""
        level = [(v, u, self)]
        while level:
            nxt = []
            for s, su, w in level:
                for n, ft, emb in w.fields(su):
                    if n == name and not (emb and self.inlined(name, u)):
                        if w is not self:
                            raise Skip("embedded type of another package")
                        return s.f[n], ft
                    if emb:
                        eu, ew = w.under(ft)
                        if eu[0] == "struct":
                            nxt.append((s.f[n], eu, ew))
            level = nxt
        raise Skip(f"no field {name}")

    def inlined(self, name, u):
        return False

    def put_promoted(self, v, u, name, m, old):
        level = [(v, u, self, old)]
        while level:
            nxt = []
            for s, su, w, o in level:
                for n, ft, emb in w.fields(su):
                    o1 = o.f[n] if isinstance(o, Struct) else None
                    if n == name:
                        s.f[n] = w.of_model(m, ft, o1)
                        return
                    if emb:
                        eu, ew = w.under(ft)
                        if eu[0] == "struct":
                            nxt.append((s.f[n], eu, ew, o1))
            level = nxt
        raise Skip(f"no field {name}")

    def of_model(self, m, t, old=None):
        u, w = self.under(t)
        k, tag = u[0], m[0]
        if tag == "nil":
            return None
        if tag in ("int", "bool", "str"):
            return m[1]
        if tag == "float":
            return struct.unpack("d", struct.pack("Q", int(m[1])))[0]
        if tag == "time":
            return Time(m[1], m[2])
        if tag == "uuid":
            return UUID(bytes(m[1]))
        if tag in ("bytes", "barr"):
            return bytes(m[1])
        if tag in ("slice", "arr"):
            xs = [w.of_model(x, u[2]) for x in m[1]]
            if tag == "arr":
                return Seq(xs, True)
            spare = [w.of_model(x, u[2]) for x in m[2]]
            if isinstance(old, Seq) and len(old.xs) + len(old.spare) == len(xs) + len(spare):
                # the same cells: other slices see them change
                base = old.cells
                for i, x in enumerate(xs + spare):
                    if i < len(base.xs):
                        base.xs[i] = x
                return Seq(xs, False, spare, base)
            return Seq(xs, False, spare)
        if tag == "map":
            return {key: w.of_model(x, u[2]) for key, x in m[1]}
        if tag == "ptr":
            return box(w.of_model(m[1], u[1]))
        if tag == "struct":
            s = w.zero(u)
            for n, x in zip(w.flat(t, u, self), m[1]):
                w.put_promoted(s, u, n, x, old)
            return s
        raise Skip(tag)


JT = {"boolean": "bool"}


def message(e):
    path, c = e
    k = c[0]
    loose = False
    name = lambda s: JT.get(s.split(".")[-1], s.split(".")[-1])
    if k == "wrongType":
        text = f"value doesn't contain {name(c[1])}; it contains {name(c[2])}"
    elif k == "exceedsMax":
        text = f"{c[1]} exceeds maximum for data type ?"
    elif k == "required":
        text = f"required element '{c[1]}' is missing"
    elif k == "twice":
        text = f"the '{c[1]}' field appears in the object twice"
    elif k == "unexpected":
        text = f"unexpected field '{c[1]}'"
    elif k == "incomplete":
        text = "incomplete data"
    elif k == "lenMismatch":
        text = "array len mismatch"
    elif k == "wrongCount":
        text = f"expected {c[1]} elements, got {c[2]}"
    elif k == "badTime":
        text = f"can't parse date-time from string '{c[1]}'"
    elif k == "notJSON":
        text, loose = "cannot parse", True
    else:
        text, loose = k, True
    if path is not None:
        text = f"error parsing '{path}': {text}"
    return GoErr(text, loose)


# ---- reading Go statements

class Parser:
    def __init__(self, src):
        self.toks = []
        prev = None
        for k, t, _ in tokens(src):
            if k == "comment":
                continue
            if k == "nl":
                if prev and (prev[0] in ("ident", "num", "str", "raw", "rune") and prev[1] not in
                             ("var", "const", "type", "import", "go", "range", "for", "if", "struct") or prev[1] in ")]}" or prev[1] in ("++", "--")):
                    self.toks.append(("op", ";"))
                    prev = None
                continue
            if k == "op" and self.toks and prev and prev[0] == "op" and prev[1] + t in \
                    (":=", "==", "!=", "<=", ">=", "++", "--", "&&", "||", "+=", "<-", "-="):
                self.toks[-1] = ("op", prev[1] + t)
                prev = self.toks[-1]
                continue
            self.toks.append((k, t))
            prev = (k, t)
        self.pos = 0

    def peek(self, i=0):
        return self.toks[self.pos + i][1] if self.pos + i < len(self.toks) else ""

    def kind(self, i=0):
        return self.toks[self.pos + i][0] if self.pos + i < len(self.toks) else "eof"

    def next(self):
        t = self.toks[self.pos]
        self.pos += 1
        return t

    def expect(self, s):
        t = self.next()
        if t[1] != s:
            raise Skip(f"syntax: {t[1]} instead of {s}")

    def semi(self):
        while self.peek() == ";":
            self.pos += 1

    def block(self):
        self.expect("{")
        out = []
        self.semi()
        while self.peek() != "}":
            out.append(self.stmt())
            self.semi()
        self.expect("}")
        return out

    def skip_block(self):
        """position after the block that begins here"""
        self.expect("{")
        d = 1
        while d:
            t = self.next()
            d += (t == ("op", "{")) - (t == ("op", "}"))

    def type(self):
        k, t = self.next()
        if t == "*":
            return ("star", self.type())
        if t == "[":
            if self.peek() == "]":
                self.pos += 1
                return ("array", None, self.type())
            n = int(self.next()[1])
            self.expect("]")
            return ("array", n, self.type())
        if t == "map":
            self.expect("[")
            key = self.type()
            self.expect("]")
            return ("map", key, self.type())
        if k != "ident" or t in ("struct", "func", "interface", "chan"):
            raise Skip(f"type {t}")
        if self.peek() == ".":
            self.pos += 1
            return ("sel", t, self.next()[1])
        return ("ident", t)

    def spec(self):
        names = [self.next()[1]]
        while self.peek() == ",":
            self.pos += 1
            names.append(self.next()[1])
        typ = None if self.peek() == "=" else self.type()
        vals = None
        if self.peek() == "=":
            self.pos += 1
            vals = self.exprs()
        return ("var", names, typ, vals)

    def stmt(self):
        start = self.pos
        try:
            return self.stmt1()
        except Skip as e:
            # find the end of the statement
            self.pos = start
            d = 0
            while self.pos < len(self.toks):
                t = self.peek()
                if d == 0 and t in (";", "}"):
                    break
                d += (t in ("(", "{", "[")) - (t in (")", "}", "]"))
                self.pos += 1
            return ("unsupported", str(e))

    def stmt1(self):
        t = self.peek()
        if t in ("var", "const"):
            self.pos += 1
            if self.peek() == "(":
                self.pos += 1
                out = []
                self.semi()
                while self.peek() != ")":
                    out.append(self.spec())
                    self.semi()
                self.expect(")")
                return ("seq", out)
            return self.spec()
        if t == "for":
            self.pos += 1
            init = self.stmt1()
            self.expect(";")
            cond = self.expr(False)
            self.expect(";")
            post = self.stmt1()
            return ("for", init, cond, post, self.block())
        if t == "return":
            self.pos += 1
            return ("return", self.exprs())
        if t == "if":
            self.pos += 1
            cond = self.expr(False)
            body = self.block()
            if self.peek() == "else":
                raise Skip("else")
            return ("if", cond, body)
        if t in ("go", "defer", "switch", "select", "func"):
            raise Skip(t)
        lhs = self.exprs(t != "for")
        if self.peek() in (":=", "="):
            op = self.next()[1]
            return (op, lhs, self.exprs())
        if self.peek() == "++":
            self.pos += 1
            return ("++", lhs[0])
        if self.peek() in (";", "}", "{"):
            return ("expr", lhs[0])
        raise Skip(f"statement {self.peek()}")

    def exprs(self, lit=True):
        out = [self.expr(lit)]
        while self.peek() == ",":
            self.pos += 1
            out.append(self.expr(lit))
        return out

    BIN = [["||"], ["&&"], ["==", "!=", "<", "<=", ">", ">="], ["+", "-"], ["*", "/", "%"]]

    def expr(self, lit=True, level=0):
        if level == len(self.BIN):
            return self.unary(lit)
        e = self.expr(lit, level + 1)
        while self.kind() == "op" and self.peek() in self.BIN[level]:
            op = self.next()[1]
            e = ("bin", op, e, self.expr(lit, level + 1))
        return e

    def unary(self, lit):
        if self.kind() == "op" and self.peek() in ("&", "*", "-", "!"):
            op = self.next()[1]
            return ("un", op, self.unary(lit))
        return self.primary(lit)

    def composite(self, typ):
        self.expect("{")
        out = []
        self.semi()
        while self.peek() != "}":
            def elem():
                return self.composite(None) if self.peek() == "{" else self.expr()
            a = elem()
            if self.peek() == ":":
                self.pos += 1
                out.append((a, elem()))
            else:
                out.append((None, a))
            if self.peek() == ",":
                self.pos += 1
            self.semi()
        self.expect("}")
        return ("lit", typ, out)

    def primary(self, lit):
        k, t = self.toks[self.pos]
        if k == "num":
            self.pos += 1
            if self.peek() == "." and self.kind(1) == "num":
                self.pos += 1
                t += "." + self.next()[1]
            if t[-1] in "eE" and not t.startswith("0x") and self.peek() in "+-":
                t += self.next()[1] + self.next()[1]
            t = t.replace("_", "")
            e = ("const", int(t, 0) if not any(c in t for c in ".eE") or t.startswith("0x") else float(t))
        elif k == "str":
            self.pos += 1
            e = ("const", json.loads(t))
        elif k == "raw":
            self.pos += 1
            e = ("const", t[1:-1])
        elif k == "rune":
            self.pos += 1
            e = ("const", ord(t[1]))
        elif t == "(":
            self.pos += 1
            e = self.expr()
            self.expect(")")
        elif t in ("[", "map"):
            typ = self.type()
            e = self.composite(typ) if self.peek() == "{" else ("type", typ)
        elif k == "ident":
            if t == "func":
                raise Skip("func literal")
            self.pos += 1
            e = ("id", t)
        else:
            raise Skip(f"syntax: {t}")
        while True:
            t = self.peek()
            if t == ".":
                self.pos += 1
                if self.peek() == "(":
                    raise Skip("type assertion")
                e = ("sel", e, self.next()[1])
            elif t == "(":
                self.pos += 1
                args = []
                self.semi()
                while self.peek() != ")":
                    args.append(self.expr())
                    if self.peek() == ",":
                        self.pos += 1
                    self.semi()
                self.expect(")")
                e = ("call", e, args)
            elif t == "[":
                self.pos += 1
                i = self.expr()
                if self.peek() == ":":
                    raise Skip("slice expression")
                self.expect("]")
                e = ("index", e, i)
            elif t == "{" and lit and (e[0] == "id" or e[0] == "sel" and e[1][0] == "id"):
                typ = ("ident", e[1]) if e[0] == "id" else ("sel", e[1][1], e[2])
                e = self.composite(typ)
            else:
                return e


class Return(Exception):
    pass


MONTHS = ["January", "February", "March", "April", "May", "June", "July", "August", "September",
          "October", "November", "December"]


def days(y, m, d):
    y -= m <= 2
    era = y // 400
    yoe = y - era * 400
    doy = (153 * ((m + 9) % 12) + 2) // 5 + d - 1
    return era * 146097 + yoe * 365 + yoe // 4 - yoe // 100 + doy


class Interp:
    def __init__(self, types, funcs, consts):
        self.types, self.funcs = types, funcs
        self.vars = [dict(consts)]
        self.checks = 0

    # -- variables: name -> [type or None, value]

    def find(self, n):
        for s in reversed(self.vars):
            if n in s:
                return s[n]
        return None

    def is_type(self, e):
        """a type expression, if it is one"""
        if e[0] == "type":
            return e[1]
        if e[0] == "id" and not self.find(e[1]) and (e[1] in self.types.decl or e[1] in INTS or e[1] in
                                                       ("string", "bool", "float32", "float64")):
            return ("ident", e[1])
        if e[0] == "sel" and e[1][0] == "id" and not self.find(e[1][1]):
            p, n = e[1][1], e[2]
            if p in self.types.imported and n in self.types.imported[p].decl or (p, n) in (("time", "Time"), ("uuid", "UUID")):
                return ("sel", p, n)
        return None

    def run(self, stmts):
        for s in stmts:
            self.stmt(s)

    def default(self, v):
        return v.v if isinstance(v, Untyped) else v

    def type_of_const(self, v):
        v = self.default(v)
        if isinstance(v, bool):
            return ("ident", "bool")
        if isinstance(v, int):
            return ("ident", "int")
        if isinstance(v, float):
            return ("ident", "float64")
        if isinstance(v, str):
            return ("ident", "string")
        return None

    def stmt(self, s):
        k = s[0]
        if k == "unsupported":
            raise Skip(s[1])
        if k == "seq":
            self.run(s[1])
        elif k == "var":
            _, names, typ, vals = s
            if vals is None:
                for n in names:
                    self.vars[-1][n] = [typ, self.types.zero(typ)]
            else:
                for n, (t, v) in zip(names, self.values(vals, len(names), typ)):
                    self.vars[-1][n] = [typ or t, self.types.convert(v, typ or t or ("other",))]
        elif k == ":=":
            names = [e[1] for e in s[1]]
            for n, (t, v) in zip(names, self.values(s[2], len(names), None)):
                if n != "_":
                    self.vars[-1][n] = [t, self.types.convert(v, t or ("other",))]
        elif k == "=":
            vals = self.values(s[2], len(s[1]), None, s[1])
            for e, (t, v) in zip(s[1], vals):
                if e == ("id", "_"):
                    continue
                lt, get, put = self.place(e)
                put(self.types.convert(v, lt or t or ("other",)))
        elif k == "++":
            lt, get, put = self.place(s[1])
            put(get() + 1)
        elif k == "expr":
            self.eval(s[1])
        elif k == "for":
            self.vars.append({})
            self.stmt(s[1])
            n = 0
            while self.eval(s[2])[1]:
                self.vars.append({})
                self.run(s[4])
                self.vars.pop()
                self.stmt(s[3])
                n += 1
                if n > 1000:
                    raise Skip("long loop")
            self.vars.pop()
        elif k == "if":
            if self.eval(s[1])[1]:
                self.vars.append({})
                self.run(s[2])
                self.vars.pop()
        elif k == "return":
            raise Return([self.eval(e) for e in s[1]])
        else:
            raise Skip(k)

    def values(self, es, n, typ, places=None):
        if len(es) == 1 and n > 1:
            if es[0][0] == "index":
                t, get, put = self.place(es[0][1])
                if isinstance(get(), dict):
                    return [self.eval(es[0]), (("ident", "bool"), self.default(self.first(self.eval(es[0][2]))) in get())]
            r = self.eval(es[0])
            if not isinstance(r, list):
                raise Skip("multiple values")
            return r
        out = []
        for i, e in enumerate(es):
            t = typ
            if places and places[i][0] != "id":
                t = self.place(places[i])[0]
            elif places and self.find(places[i][1]):
                t = self.find(places[i][1])[0]
            tv = self.eval(e, t)
            if isinstance(tv, list):
                tv = tv[0]
            out.append((tv[0] or self.type_of_const(tv[1]), tv[1]))
        return out

    # -- places: (type, get, put)

    def place(self, e):
        k = e[0]
        if k == "id":
            v = self.find(e[1])
            if v is None:
                raise Skip(f"variable {e[1]}")
            return v[0], (lambda: v[1]), (lambda x: v.__setitem__(1, x))
        if k == "sel":
            t, get, put = self.place(e[1])
            return self.field(t, get(), e[2])
        if k == "index":
            t, get, put = self.place(e[1])
            i = self.default(self.eval(e[2])[1])
            u, w = self.types.under(t)
            c = get()
            if u[0] == "map":
                if c is None:
                    raise Failed("nil map")
                return w_type(w, self.types, u[2]), (lambda: c.get(i, w.zero(u[2]))), (lambda x: c.__setitem__(i, x))
            if c is None or not isinstance(c, Seq) or i >= len(c.xs):
                raise Failed("index out of range")
            return w_type(w, self.types, u[2]), (lambda: c.xs[i]), (lambda x: c.xs.__setitem__(i, x))
        if k == "un" and e[1] == "*":
            t, get, put = self.place(e[2])
            u, w = self.types.under(t)
            p = get()
            if p is None:
                raise Failed("nil pointer")
            return w_type(w, self.types, u[1]), p.get, p.put
        if k == "lit":
            t, v = self.eval(e)
            cell = [v]
            return t, (lambda: cell[0]), (lambda x: cell.__setitem__(0, x))
        raise Skip(f"place {k}")

    def field(self, t, v, name):
        u, w = self.types.under(t)
        if u[0] == "star":
            if v is None:
                raise Failed("nil pointer")
            v = v.get()
            u, w = w.under(u[1])
        if not isinstance(v, Struct):
            raise Skip("field of something else")
        level = [(v, u, w)]
        while level:
            nxt = []
            for s, su, sw in level:
                for n, ft, emb in sw.fields(su):
                    if n == name:
                        return w_type(sw, self.types, ft), (lambda: s.f[n]), (lambda x: s.f.__setitem__(n, x))
                    if emb:
                        eu, ew = sw.under(ft)
                        if eu[0] == "struct":
                            nxt.append((s.f[n], eu, ew))
            level = nxt
        raise Skip(f"no field {name}")

    # -- expressions: (type, value) or a list of them

    def eval(self, e, want=None):
        k = e[0]
        if k == "const":
            return None, Untyped(e[1])
        if k == "id":
            n = e[1]
            v = self.find(n)
            if v is not None:
                return v[0], v[1]
            if n in ("true", "false"):
                return None, Untyped(n == "true")
            if n == "nil":
                return want, None
            raise Skip(f"name {n}")
        if k == "sel":
            if e[1][0] == "id" and not self.find(e[1][1]):
                p, n = e[1][1], e[2]
                if p == "time" and n in MONTHS:
                    return ("ident", "int"), MONTHS.index(n) + 1
                if (p, n) == ("time", "UTC"):
                    return None, 0
                if (p, n) == ("math", "MaxInt64"):
                    return None, Untyped(2**63 - 1)
                raise Skip(f"{p}.{n}")
            try:
                t, get, put = self.place(e[1])
                v = get()
            except Skip:
                t, v = self.eval(e[1])
            t, get, put = self.field(t, v, e[2])
            return t, get()
        if k == "index":
            t, get, put = self.place(e)
            return t, get()
        if k == "lit":
            return self.literal(e, want)
        if k == "un":
            op = e[1]
            if op == "&":
                w = None
                if want:
                    u, _ = self.types.under(want)
                    w = u[1] if u[0] == "star" else None
                if e[2][0] == "lit":
                    t, v = self.literal(e[2], w)
                    return ("star", t), box(v)
                t, get, put = self.place(e[2])
                return ("star", t), Ptr(get, put)
            if op == "*":
                t, v = self.eval(e[2])
                if v is None:
                    raise Failed("nil pointer")
                u, w = self.types.under(t)
                return w_type(w, self.types, u[1]), v.get()
            t, v = self.eval(e[2])
            f = (lambda x: -x) if op == "-" else (lambda x: not x)
            return t, Untyped(f(v.v)) if isinstance(v, Untyped) else f(v)
        if k == "bin":
            ta, a = self.eval(e[2])
            tb, b = self.eval(e[3])
            a, b = self.default(a), self.default(b)
            op = e[1]
            if op in ("==", "!="):
                r = (plain(a) == plain(b)) == (op == "==")
                return ("ident", "bool"), r
            r = {"+": lambda: a + b, "-": lambda: a - b, "%": lambda: a % b, "*": lambda: a * b, "<": lambda: a < b,
                 "<=": lambda: a <= b, ">": lambda: a > b, ">=": lambda: a >= b,
                 "&&": lambda: a and b, "||": lambda: a or b}.get(op)
            if r is None:
                raise Skip(op)
            t = ta or tb
            return t, r() if t else Untyped(r())
        if k == "call":
            return self.call(e, want)
        raise Skip(k)

    def literal(self, e, want):
        typ = e[1] or want
        if typ is None:
            raise Skip("type of a literal")
        u, w = self.types.under(typ)
        if u[0] == "star" and e[1] is None:
            t, v = self.literal(("lit", u[1], e[2]), None)
            return typ, box(v)
        if u[0] == "struct":
            s = w.zero(u)
            fs = {n: ft for n, ft, _ in w.fields(u)}
            order = [n for n, _, _ in w.fields(u)]
            for i, (a, b) in enumerate(e[2]):
                n = order[i] if a is None else a[1]
                ft = w_type(w, self.types, fs[n])
                s.f[n] = self.types.convert(self.first(self.eval(b, ft)), ft)
            return typ, s
        if u[0] == "array":
            et = w_type(w, self.types, u[2])
            xs = [self.types.convert(self.first(self.eval(b, et)), et) for _, b in e[2]]
            if Types.is_byte(w, u[2]):
                return typ, bytes(xs)
            if u[1] is not None:
                xs += [self.types.zero(et) for _ in range(u[1] - len(xs))]
            return typ, Seq(xs, u[1] is not None)
        if u[0] == "map":
            et = w_type(w, self.types, u[2])
            return typ, {self.default(self.first(self.eval(a))): self.types.convert(self.first(self.eval(b, et)), et)
                         for a, b in e[2]}
        if u[0] == "sel" and not e[2]:
            return typ, self.types.zero(u)
        raise Skip("literal")

    def first(self, tv):
        return tv[0][1] if isinstance(tv, list) else tv[1]

    def method(self, recv, name, args):
        """a method of a value of this package"""
        t, get, put = self.place(recv)
        v = get()
        if isinstance(v, GoErr) and name == "Error":
            return ("ident", "string"), v.text
        u, w = self.types.under(t)
        if isinstance(v, Time) and name == "IsZero" and t[0] == "sel":
            return ("ident", "bool"), v.ns == 0
        if t[0] == "star":
            if v is None:
                if name == "MarshalJSON":
                    return self.marshal(t[1], None)
                raise Skip("nil receiver")
            t, get, put = t[1], v.get, v.put
            v = get()
        return self.on(t, get, put, name, args)

    def owner(self, t):
        if t[0] == "sel" and t[1] in self.types.imported:
            return self.types.imported[t[1]], t[2]
        if t[0] == "ident" and t[1] in self.types.decl:
            return self.types, t[1]
        raise Skip("method of another type")

    def ask(self, w, req):
        r = w.model(req)
        if r[0] in ("unsupp", "bad", "loop"):
            raise Skip(f"model: {r}")
        if r[0] == "panic":
            raise Failed("panic")
        return r[1]

    def marshal(self, t, v):
        w, n = self.owner(t)
        r = self.ask(w, ["marshal", n, None if v is None else self.types.to_model(v[0], t)])
        if r[0] == "ok":
            return [(None, r[1].encode()), (None, None)]
        return [(None, None), (None, GoErr("error of encoding", True))]

    def on(self, t, get, put, name, args):
        w, n = self.owner(t)
        if name == "UnmarshalJSON":
            data = args[0]
            text = "" if data is None else data.decode()
            e, v = self.ask(w, ["unmarshal", n, self.types.to_model(get(), t), text])
            put(self.types.of_model(v, t, get()))
            return None, (None if e is None else message(e))
        if name == "MarshalJSON":
            return self.marshal(t, [get()])
        if name == "IsZero":
            return ("ident", "bool"), self.ask(w, ["isZero", n, self.types.to_model(get(), t)])
        if name == "Reset":
            put(self.types.of_model(self.ask(w, ["reset", n, self.types.to_model(get(), t)]), t, get()))
            return None, None
        raise Skip(f"method {name}")

    def args(self, es):
        return [self.default(self.first(self.eval(e))) for e in es]

    def call(self, e, want):
        f, es = e[1], e[2]
        t = self.is_type(f)
        if t is not None:
            a = self.first(self.eval(es[0]))
            if t == ("array", None, ("ident", "byte")):
                a = self.default(a)
                return t, a if isinstance(a, bytes) else a.encode()
            if t == ("ident", "string"):
                a = self.default(a)
                return t, a.decode() if isinstance(a, bytes) else "" if a is None else a
            if isinstance(a, Untyped):
                return t, self.types.convert(a, t)
            u, _ = self.types.under(t)
            if u[0] == "ident" and u[1] == "float32":
                return t, struct.unpack("f", struct.pack("f", a))[0]
            return t, copy(a)
        if f[0] == "id":
            n = f[1]
            if n == "ref":
                t, v = self.eval(es[0])
                t = t or self.type_of_const(v)
                if want and self.types.under(want)[0][0] == "star":
                    t = self.types.under(want)[0][1]
                return ("star", t), box(self.types.convert(v, t))
            if n == "len":
                v = self.args(es)[0]
                return ("ident", "int"), length(v)
            if n == "cap":
                v = self.args(es)[0]
                return ("ident", "int"), length(v) + (len(v.spare) if isinstance(v, Seq) else 0)
            if n == "new":
                t = self.is_type(es[0])
                return ("star", t), box(self.types.zero(t))
            if n == "append":
                t, v = self.eval(es[0])
                u, w = self.types.under(t)
                et = w_type(w, self.types, u[2])
                return t, Seq((v.xs if v else []) + [self.types.convert(self.first(self.eval(x, et)), et) for x in es[1:]])
            if n in self.funcs and not es:
                it = Interp(self.types, self.funcs, self.vars[0])
                try:
                    it.run(self.funcs[n])
                except Return as r:
                    return r.args[0][0]
                raise Skip("function without result")
            raise Skip(f"function {n}")
        if f[0] != "sel":
            raise Skip("call")
        if f[1][0] == "id" and not self.find(f[1][1]):
            p, n = f[1][1], f[2]
            if p == "require":
                return self.require(n, es[1:])
            if (p, n) == ("time", "Date"):
                y, mo, d, h, mi, s, ns, _ = self.args(es)
                dd = days(y, mo, d) - days(1, 1, 1)
                return ("sel", "time", "Time"), Time((((dd * 24 + h) * 60 + mi) * 60 + s) * 10**9 + ns, 0)
            if (p, n) == ("math", "Inf"):
                return ("ident", "float64"), float("inf")
            if (p, n) == ("time", "Now"):
                return ("sel", "time", "Time"), Time((days(2024, 5, 6) - days(1, 1, 1)) * 86400 * 10**9 + 123456789, 0)
            if (p, n) == ("json", "Unmarshal"):
                data = self.default(self.first(self.eval(es[0])))
                t, q = self.eval(es[1])
                try:
                    json.loads(data)
                except ValueError:
                    return None, GoErr("invalid JSON", True)
                return self.on(t[1], q.get, q.put, "UnmarshalJSON", [data])
            if (p, n) == ("json", "Marshal"):
                t, v = self.eval(es[0])
                if t and t[0] == "star":
                    t, v = t[1], v.get()
                if t == ("sel", "time", "Time"):
                    raise Skip("json.Marshal of a time")
                return self.marshal(t, [v])
            if (p, n) == ("uuid", "Must") and es[0] == ("call", ("sel", ("id", "uuid"), "NewUUID"), []):
                return ("sel", "uuid", "UUID"), UUID(bytes(range(0x10, 0x20)))
            if (p, n) == ("fmt", "Sprintf"):
                a = self.args(es)
                return ("ident", "string"), a[0].replace("%v", "%s").replace("%q", '"%s"') % tuple(
                    uuid_text(x) if isinstance(x, UUID) else x for x in a[1:])
            raise Skip(f"{p}.{n}")
        if f[1][0] in ("id", "sel", "index", "un", "lit"):
            if f[2] == "String":
                v = self.first(self.eval(f[1]))
                if isinstance(v, UUID):
                    return ("ident", "string"), uuid_text(v)
            return self.method(f[1], f[2], [self.default(self.first(self.eval(x))) for x in es])
        raise Skip("call")

    def require(self, n, es):
        tvs = [self.eval(x) for x in es]
        vs = [self.default(self.first(tv)) for tv in tvs]
        self.checks += 1
        ok = None
        if n == "NoError":
            ok = vs[0] is None
        elif n == "Error":
            ok = vs[0] is not None
        elif n == "ErrorContains":
            ok = vs[0] is not None and (vs[1] in vs[0].text or vs[0].loose and not vs[1].startswith("error parsing"))
        elif n == "Nil":
            ok = vs[0] is None
        elif n == "NotNil":
            ok = vs[0] is not None
        elif n in ("True", "False"):
            ok = vs[0] == (n == "True")
        elif n == "JSONEq":
            try:
                ok = same_json(json.loads(vs[0]), json.loads(vs[1]))
            except ValueError:
                ok = False
        elif n in ("Equal", "EqualValues"):
            ok = same(plain(vs[0]), plain(vs[1]))
        elif n == "Len":
            ok = length(vs[0]) == vs[1]
        elif n in ("Zero", "Empty", "NotZero", "NotEmpty"):
            v = vs[0]
            z = zero_like(v)
            if n.endswith("Empty"):
                z = z or length(v) == 0 or isinstance(v, Ptr) and zero_like(v.get())
            ok = bool(z) == (not n.startswith("Not"))
        elif n == "ElementsMatch":
            key = lambda v: sorted(map(repr, (plain(x) for x in v.xs)))
            ok = key(vs[0]) == key(vs[1])
        else:
            raise Skip(f"require.{n}")
        if not ok:
            show = [v.text if isinstance(v, GoErr) else plain(v) for v in vs]
            raise Failed(f"require.{n}{tuple(show)}")
        return None, None


def w_type(w, here, t):
    """a type written in package w, as seen from `here`"""
    if w is here:
        return t
    if t[0] == "ident" and t[1] in w.decl:
        for a, x in here.imported.items():
            if x is w:
                return ("sel", a, t[1])
        raise Skip("type of a package that is not imported")
    if t[0] == "star":
        return ("star", w_type(w, here, t[1]))
    if t[0] in ("array", "map"):
        return (t[0], t[1] if t[0] == "array" else ("ident", "string"), w_type(w, here, t[2]))
    return t


def uuid_text(u):
    h = u.b.hex()
    return "-".join([h[:8], h[8:12], h[12:16], h[16:20], h[20:]])


def same(a, b):
    if a == b:
        return True
    if isinstance(a, float) or isinstance(b, float):
        return isinstance(a, (int, float)) and isinstance(b, (int, float)) and abs(a - b) <= 1e-6 * max(1, abs(a))
    if isinstance(a, tuple) and isinstance(b, tuple):
        return len(a) == len(b) and all(same(x, y) for x, y in zip(a, b))
    return a == b


def same_json(a, b):
    if isinstance(a, dict) and isinstance(b, dict):
        return a.keys() == b.keys() and all(same_json(a[k], b[k]) for k in a)
    if isinstance(a, list) and isinstance(b, list):
        return len(a) == len(b) and all(same_json(x, y) for x, y in zip(a, b))
    if isinstance(a, bool) or isinstance(b, bool):
        return a is b
    if isinstance(a, (int, float)) and isinstance(b, (int, float)):
        return a == b or abs(a - b) <= 1e-6 * max(1, abs(a))
    return a == b


def length(v):
    if v is None:
        return 0
    if isinstance(v, Seq):
        return len(v.xs)
    return len(v) if isinstance(v, (str, bytes, dict)) else -1


def zero_like(v):
    if v is None or v in (0, 0.0, "", False) and not isinstance(v, (Seq, Struct)):
        return True
    if isinstance(v, Time):
        return v.ns == 0
    if isinstance(v, UUID):
        return not any(v.b)
    if isinstance(v, Struct):
        return all(zero_like(x) for x in v.f.values())
    if isinstance(v, Seq) and v.fixed:
        return all(zero_like(x) for x in v.xs)
    return False


# ---- the tests of a file

def read_tests(path):
    """-> tests [(name, statements)], functions, constants (statements)"""
    p = Parser(open(path).read())
    tests, funcs, consts = [], {}, []
    while p.pos < len(p.toks):
        t = p.peek()
        if t in ("var", "const"):
            consts.append(p.stmt())
        elif t == "func" and p.kind(1) == "ident":
            p.pos += 1
            name = p.next()[1]
            args = p.pos
            d = 0
            while True:          # header
                x = p.next()[1]
                d += (x in ("(", "[")) - (x in (")", "]"))
                if x == "{" and d == 0:
                    p.pos -= 1
                    break
            simple = p.toks[args + 1][1] == ")"
            start = p.pos
            p.skip_block()
            end = p.pos
            if name.startswith("Test"):
                p.pos = start
                tests += test_body(p, name, end)
                p.pos = end
            elif simple:
                p.pos = start
                funcs[name] = p.block()
                p.pos = end
        else:
            p.pos += 1
    return tests, funcs, consts


def test_body(p, name, end):
    """sub-tests, with the statements before them"""
    p.expect("{")
    out, common, subs = [], [], 0
    p.semi()
    while p.peek() != "}":
        if p.peek() == "t" and p.peek(1) == "." and p.peek(2) == "Run":
            p.pos += 4
            sub = p.next()[1]
            subs += 1
            while p.peek() != "{":
                p.pos += 1
            out.append((name + "/" + sub.strip('"`'), common + p.block()))
            p.expect(")")
        else:
            s = p.stmt()
            if s == ("expr", ("call", ("sel", ("id", "t"), "Parallel"), [])):
                p.semi()
                continue
            common = common + [s]
        p.semi()
    if not subs:
        out.append((name, common))
    return out


PARALLEL = ("expr", ("call", ("sel", ("id", "t"), "Parallel"), []))


def sources(d):
    return [os.path.join(d, f) for f in sorted(os.listdir(d))
            if f.endswith(".go") and not f.endswith(("_test.go", ".out.go")) and f != "valyjson_utils.go"]


class Universe:
    """all packages below a directory, with one Lean process for each"""

    def __init__(self, repo):
        self.fill = os.path.join(repo, "test/tests/fill")
        self.cache = {}
        self.procs = []

    def package(self, d):
        if d in self.cache:
            return self.cache[d]
        files = [GoFile(f) for f in sources(d)]
        imported = {}
        for g in files:
            for alias, path in g.imports.items():
                if path.startswith("fill/"):
                    imported[alias] = os.path.join(self.fill, path[len("fill/"):])
        ts = Types(files, {a: self.package(p) for a, p in imported.items()})
        ts.dir, ts.files, ts.imported_dirs = d, files, imported
        self.cache[d] = ts
        self.start(ts)
        return ts

    def start(self, ts):
        dirs, order = {}, []

        def visit(d):
            if d in dirs:
                return
            dirs[d] = len(dirs)
            for x in self.cache[d].imported_dirs.values():
                visit(x)
            order.append(d)
        visit(ts.dir)
        lean = "import Lean.Data.Json\nimport Verif.Model.Parser\n" + PRELUDE[:PRELUDE.index("def conform (")] + SERVER
        for d in order:
            i, p = dirs[d], self.cache[d]
            fs = p.files
            lean += f"def files{i} : List (List TypeDecl) := [{', '.join(llist(tdecl, g.decls) for g in fs)}]\n"
            stars = [(n, t) for g in fs for _, ss in g.decls for (n, t, _) in ss if t[0] == "star"]
            body = "none"
            for a, x in p.imported_dirs.items():
                body = f"if p = {lstr(a)} then some (files{dirs[x]}.flatten) else {body}"
            ext = ", ".join(f"({lstr(a)}, files{dirs[x]}.flatten)" for a, x in p.imported_dirs.items())
            oth = ", ".join(f"({lstr(a)}, pack{dirs[x]})" for a, x in p.imported_dirs.items())
            lean += (f"def pack{i} : Pack := pack (fun p _ => {body}) files{i} "
                     f"[{', '.join(f'({lstr(n)}, {expr(t)})' for n, t in stars)}] [{ext}] [{oth}]\n")
        lean += f"def main : IO Unit := serve pack{dirs[ts.dir]}\n"
        tf = tempfile.NamedTemporaryFile("w", suffix=".lean", delete=False)
        tf.write(lean)
        tf.close()
        proc = subprocess.Popen(["lake", "env", "lean", "--run", tf.name], cwd=LEAN, text=True,
                                stdin=subprocess.PIPE, stdout=subprocess.PIPE)
        memo = {}

        def model(req):
            line = json.dumps(req)
            if line not in memo:
                proc.stdin.write(line + "\n")
                proc.stdin.flush()
                ans = proc.stdout.readline()
                if not ans:
                    raise RuntimeError("the model stopped: " + tf.name)
                while not ans.startswith(("[", "n")):
                    print(ans, end="")
                    ans = proc.stdout.readline()
                    if not ans:
                        raise RuntimeError("the model stopped: " + tf.name)
                memo[line] = json.loads(ans)
            return memo[line]
        ts.model = model
        self.procs.append((proc, tf.name))

    def close(self):
        for proc, name in self.procs:
            proc.stdin.close()
            proc.wait()
            os.unlink(name)


def main():
    verbose = "-v" in sys.argv
    args = [a for a in sys.argv[1:] if not a.startswith("-")]
    repo = args[0] if args else "/repo"
    only = args[1] if len(args) > 1 else ""
    uni = Universe(repo)
    total = {"tests": 0, "passed": 0, "checks": 0, "skipped": 0, "failed": 0}
    paths = []
    for root, _, files in sorted(os.walk(os.path.join(repo, "test"))):
        for f in sorted(files):
            if f.endswith("_test.go") and only in root and os.path.exists(os.path.join(root, "valyjson_utils.go")) \
                    and not f.startswith("valyjson_utils"):
                paths.append(os.path.join(root, f))
    for path in paths:
        ts = uni.package(os.path.dirname(path))
        tests, funcs, consts = read_tests(path)
        for alias, ip in GoFile(path).imports.items():
            if ip.startswith("fill/"):
                ts.imported.setdefault(alias, uni.package(os.path.join(uni.fill, ip[len("fill/"):])))
        res = {"passed": 0, "skipped": 0, "failed": 0}
        for name, body in tests:
            it = Interp(ts, funcs, {})
            try:
                for c in consts:
                    try:
                        it.stmt(c)
                    except Skip:
                        pass
                it.vars.append({})
                it.run([s for s in body if s != PARALLEL])
                res["passed"] += 1
                total["checks"] += it.checks
            except Skip as e:
                res["skipped"] += 1
                if verbose:
                    print(f"skip {name}: {e}")
            except Failed as e:
                res["failed"] += 1
                print(f"FAIL {os.path.basename(os.path.dirname(path))} {name}: {e}")
        total["tests"] += len(tests)
        for k in res:
            total[k] += res[k]
        print(f"{os.path.relpath(path, repo)}: {res['passed']} passed, {res['skipped']} skipped, {res['failed']} failed", flush=True)
    uni.close()
    print(json.dumps(total))


if __name__ == "__main__":
    main()
