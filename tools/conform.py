#!/usr/bin/env python3
"""Compare the model with the generated code that is checked in at /repo.

For every source file of /repo that has its generated output beside it, the types are read,
handed to the model (front end, code generator: Verif/Model/Front, GenFill, GenMarshal),
written out as Go text (Verif/Model/Emit) and compared, function by function, with the output.
White space, comments and the import block are not compared.  Maps keyed by a named string
type are modelled as maps with string keys, so the conversions of keys are not compared.

Usage: tools/conform.py [-v] [/repo]     (needs a built Lake project)
"""
import json
import os
import re
import subprocess
import sys
import tempfile

HERE = os.path.dirname(os.path.abspath(__file__))
LEAN = os.path.join(HERE, "..", "lean")

TOKEN = re.compile(r"""
    (?P<comment>//[^\n]*|/\*.*?\*/)
  | (?P<raw>`[^`]*`)
  | (?P<str>"(?:\\.|[^"\\])*")
  | (?P<rune>'(?:\\.|[^'\\])*')
  | (?P<ident>[A-Za-z_][A-Za-z_0-9]*)
  | (?P<num>[0-9][0-9a-zA-Z_.]*)
  | (?P<nl>\n)
  | (?P<ws>[ \t\r]+)
  | (?P<op>.)
""", re.X | re.S)


def tokens(src):
    out, line = [], 1
    for m in TOKEN.finditer(src):
        k, t = m.lastgroup, m.group()
        if k != "ws":
            out.append((k, t, line))
        line += t.count("\n")
    return out


class GoFile:
    """The type declarations of a Go file."""

    def __init__(self, path):
        self.path = path
        self.toks = tokens(open(path).read())
        self.imports = {}
        self.decls = []          # (doc, [(name, type, doc)])
        self.pos = 0
        self.parse()

    def doc_before(self, i):
        """lines of the comment group that ends on the line before token i"""
        line, lines = self.toks[i][2], []
        j = i - 1
        want = line - 1
        while j >= 0:
            k, t, l = self.toks[j]
            if k == "nl":
                j -= 1
                continue
            if k == "comment" and l + t.count("\n") == want and (j == 0 or self.toks[j - 1][0] == "nl"):
                lines.append(t)
                want = l - 1
                j -= 1
                continue
            break
        return list(reversed(lines)) or None

    def peek(self):
        while self.pos < len(self.toks) and self.toks[self.pos][0] == "comment":
            self.pos += 1
        return self.toks[self.pos] if self.pos < len(self.toks) else ("eof", "", 0)

    def skip_nl(self):
        while self.peek()[0] == "nl" or self.peek()[1] == ";":
            self.pos += 1

    def next(self):
        t = self.peek()
        self.pos += 1
        return t

    def expect(self, s):
        t = self.next()
        assert t[1] == s, (self.path, t, s)

    def parse(self):
        depth = 0
        while self.peek()[0] != "eof":
            k, t, _ = self.peek()
            if k == "op" and t in "({[":
                depth += 1
            elif k == "op" and t in ")}]":
                depth -= 1
            elif depth == 0 and k == "ident" and t == "import":
                self.pos += 1
                self.parse_imports()
                continue
            elif depth == 0 and k == "ident" and t == "type":
                self.parse_decl()
                continue
            self.pos += 1

    def parse_imports(self):
        def one():
            alias = None
            if self.peek()[0] == "ident" or self.peek()[1] in "._":
                alias = self.next()[1]
            path = self.next()[1].strip('"')
            self.imports[alias or path.split("/")[-1]] = path
        if self.peek()[1] == "(":
            self.pos += 1
            self.skip_nl()
            while self.peek()[1] != ")":
                one()
                self.skip_nl()
            self.pos += 1
        else:
            one()

    def parse_decl(self):
        doc = self.doc_before(self.pos)
        self.expect("type")
        if self.peek()[1] != "(":
            name = self.next()[1]
            self.decls.append((doc, [(name, self.parse_type(), None)]))
            return
        self.expect("(")
        specs = []
        self.skip_nl()
        while self.peek()[1] != ")":
            d = self.doc_before(self.pos)
            name = self.next()[1]
            specs.append((name, self.parse_type(), d))
            self.skip_nl()
        self.expect(")")
        self.decls.append((doc, specs))

    def parse_type(self):
        k, t, _ = self.next()
        if t == "*":
            return ("star", self.parse_type())
        if t == "[":
            if self.peek()[1] == "]":
                self.pos += 1
                return ("array", None, self.parse_type())
            n = int(self.next()[1])
            self.expect("]")
            return ("array", n, self.parse_type())
        if t == "map":
            self.expect("[")
            key = self.parse_type()
            self.expect("]")
            return ("map", key, self.parse_type())
        if t == "struct":
            return self.parse_struct()
        if t == "interface":
            depth = 0
            while True:
                t = self.next()[1]
                depth += (t == "{") - (t == "}")
                if depth == 0:
                    return ("other",)
        assert k == "ident", (self.path, k, t)
        if self.peek()[1] == ".":
            self.pos += 1
            return ("sel", t, self.next()[1])
        return ("ident", t)

    def parse_struct(self):
        self.expect("{")
        fields = []
        self.skip_nl()
        while self.peek()[1] != "}":
            names, tag = [], None
            if self.peek()[1] == "*":
                typ = self.parse_type()
            else:
                first = self.next()
                nxt = self.peek()
                if nxt[1] == ".":
                    self.pos += 1
                    typ = ("sel", first[1], self.next()[1])
                elif nxt[0] in ("nl", "raw", "str") or nxt[1] in ";}":
                    typ = ("ident", first[1])
                else:
                    names = [first[1]]
                    while self.peek()[1] == ",":
                        self.pos += 1
                        names.append(self.next()[1])
                    typ = self.parse_type()
            if self.peek()[0] in ("raw", "str"):
                tag = self.next()[1]
            fields.append((names, typ, tag))
            self.skip_nl()
        self.expect("}")
        return ("struct", fields)


# ---- Go declarations as Lean terms

def lstr(s):
    return "(str " + json.dumps(s, ensure_ascii=False) + ")"


def lopt(f, x):
    return "none" if x is None else f"(some {f(x)})"


def llist(f, xs):
    return "[" + ", ".join(f(x) for x in xs) + "]"


def expr(t):
    k = t[0]
    if k == "ident":
        return f"(SrcExpr.ident {lstr(t[1])})"
    if k == "sel":
        return f"(SrcExpr.sel {lstr(t[1])} {lstr(t[2])})"
    if k == "array":
        return f"(SrcExpr.array {lopt(str, t[1])} {expr(t[2])})"
    if k == "map":
        return f"(SrcExpr.map {expr(t[2])})"
    if k == "star":
        return f"(SrcExpr.star {expr(t[1])})"
    return "SrcExpr.other"


def field(f):
    return f"(⟨{llist(lstr, f[0])}, {expr(f[1])}, {lopt(lstr, f[2])}⟩ : SrcField)"


def spec(t):
    k = t[0]
    if k == "struct":
        return f"(SpecType.struct {llist(field, t[1])})"
    if k == "ident":
        return f"(SpecType.ident {lstr(t[1])})"
    if k == "sel":
        return f"(SpecType.sel {lstr(t[1])} {lstr(t[2])})"
    if k == "array":
        return f"(SpecType.array {lopt(str, t[1])} {expr(t[2])})"
    if k == "map":
        return f"(SpecType.map {expr(t[2])})"
    return "SpecType.other"


def tspec(s):
    name, typ, doc = s
    return f"(⟨{lstr(name)}, {spec(typ)}, {lopt(lambda d: llist(lstr, d), doc)}⟩ : TypeSpec)"


def tdecl(d):
    doc, specs = d
    return f"(⟨{lopt(lambda d: llist(lstr, d), doc)}, {llist(tspec, specs)}⟩ : TypeDecl)"


PRELUDE = r'''
import Verif.Model.Emit
import Verif.Model.Methods
open VJ
set_option linter.all false

/-- Floats and times do not matter for the text: defaults are copied as they are written, and
the generator formats the zero time with the layouts below. -/
@[instance_reducible] def conformExt : Ext where
  parseFloat _ := some 0
  fmtFloat _ := []
  gtMaxFloat32 _ := false
  toFloat32 f := f
  parseTime _ _ := none
  fmtTime l _ := if l = str "2006-01-02T15:04:05Z07:00" then str "0001-01-01T00:00:00Z"
    else if l = str "2006.01.02" then str "0001.01.01" else str "?"
  timeText _ := none
attribute [local instance] conformExt

def noneM : Methods := ⟨.unsupp, fun _ => .unsupp, fun _ _ => .unsupp, fun _ _ => .unsupp, fun _ => .unsupp, fun _ => .unsupp⟩

def showName (s : Str) : String := String.ofList s

/-- types of the file without methods of their own, and types of other packages -/
def rawDecl (s : TypeSpec) (star : SrcExpr) : Option Decl :=
  match s.typ with
  | .struct _ => some (.struct false [])
  | .map v => match exprOf (fun _ => false) (.map v) with
    | .ok t => some (.alias t)
    | _ => none
  | .array l e => match exprOf (fun _ => false) (.array l e) with
    | .ok t => some (.alias t)
    | _ => none
  | .ident n => match exprOf (fun _ => false) (.ident n) with
    | .ok t => some (.alias t)
    | _ => none
  | .sel p n => match exprOf (fun _ => false) (.sel p n) with
    | .ok t => some (.alias t)
    | _ => none
  | .other => match exprOf (fun _ => false) star with
    | .ok t => some (.alias t)
    | _ => none

def conform (pkgs : GetPackage) (file : List TypeDecl) (stars : List (Str × SrcExpr))
    (ext : List (Str × List TypeDecl)) (members : List (Str × Member)) : IO Unit := do
  match getNormalized pkgs 20 file with
  | .ok rs =>
    let mut table : List (Nat × Decl) := []
    for s in fileSpecs file do
      match fullRenderer rs s.name with
      | some r =>
        match declOf (fun _ _ => .no) (fun _ => false) r s.typ with
        | .ok d => table := (identId s.name, d) :: table
        | _ => IO.println s!"!! declOf {showName s.name}"
      | none =>
        match rs.find? (fun r => r.name = s.name) with
        | some r =>
          match declOf (fun _ _ => .no) (fun _ => false) r s.typ with
          | .ok d => table := (identId s.name, d) :: table
          | _ => pure ()
        | none =>
          match rawDecl s ((stars.lookup s.name).getD .other) with
          | some d => table := (identId s.name, d) :: table
          | none => pure ()
    let mut tableX := table
    for (p, f) in ext do
      for s in fileSpecs f do
        match rawDecl s .other with
        | some d => tableX := (selId p s.name, d) :: tableX
        | none => pure ()
    let names := fun (r : Renderer) => match r.kind with
      | .struct fields => (fields.flatMap goNames).map showName
      | _ => []
    let env (r : Renderer) : Env :=
      let t := match r.kind with
        | .struct _ | .array .. => tableX
        | _ => table
      ⟨fun n => t.lookup n, fun _ => noneM⟩
    for (nm, m) in members do
      match rs.find? (fun r => r.name = nm), table.lookup (identId nm) with
      | some r, some d =>
        let n := showName nm
        match m with
        | .fillFromJSON => for l in Emit.decoders (env r) n (names r) d do IO.println l
        | .marshalTo => for l in Emit.encoders (env r) n (names r) d do IO.println l
        | _ => pure ()
      | _, _ => IO.println s!"!! no declaration for {showName nm}"
  | _ => IO.println "!! front end"

def run (pkgs : GetPackage) (file : List TypeDecl) (stars : List (Str × SrcExpr))
    (ext : List (Str × List TypeDecl)) : IO Unit := do
  match generate pkgs 20 file with
  | .ok ms => conform pkgs file stars ext ms
  | _ => IO.println "!! generate"
'''


def norm(line, keys):
    line = re.sub(r"\s+", " ", line.strip())
    for k in keys:
        line = line.replace(f"map[{k}]", "map[string]").replace(f"[{k}(key)]", "[string(key)]")
    line = line.replace("result.String(string(_k))", "result.String(_k)")
    # a constant spelled with other quotes
    return re.sub(r"`([^`]*)`", lambda m: json.dumps(m.group(1), ensure_ascii=False), line)


def functions(lines):
    """split into (header, body) of top-level declarations; lines are normalised"""
    out, cur, depth = [], None, 0
    for l in lines:
        bare = re.sub(r'"(?:\\.|[^"\\])*"|`[^`]*`|\'(?:\\.|[^\'\\])*\'', "", l)
        if cur is None:
            cur = [l]
        else:
            cur.append(l)
        depth += bare.count("{") + bare.count("(") - bare.count("}") - bare.count(")")
        if depth == 0:
            out.append(cur)
            cur = None
    assert cur is None, cur[:3]
    return out


def golden(path, keys):
    src = open(path).read()
    out = []
    kept = []
    for k, t, line in tokens(src):
        pass
    # remove comments outside of strings
    res, i = [], 0
    for m in TOKEN.finditer(src):
        res.append("" if m.lastgroup == "comment" else m.group())
    src = "".join(res)
    src = re.sub(r"(?m)^package .*$", "", src, count=1)
    src = re.sub(r"(?ms)^import \(.*?^\)", "", src, count=1)
    src = re.sub(r"(?m)^import .*$", "", src)
    lines = [norm(l, keys) for l in src.split("\n")]
    return functions([l for l in lines if l])


def tail(f):
    return f.split("/")[-1]


def main():
    verbose = "-v" in sys.argv
    args = [a for a in sys.argv[1:] if not a.startswith("-")]
    repo = args[0] if args else "/repo"
    fill = os.path.join(repo, "test/tests/fill")
    jobs = []
    for root, _, files in sorted(os.walk(os.path.join(repo, "test"))):
        for f in sorted(files):
            if f.endswith(".go.out.go"):
                jobs.append((os.path.join(root, f[:-len(".out.go")]), os.path.join(root, f)))
    bench = os.path.join(repo, "benchmark")
    jobs.append((os.path.join(bench, "data.go"), os.path.join(bench, "data_json.go")))
    types = same = 0
    total = {"functions": 0, "equal": 0, "different": [], "missing": [], "extra": []}
    for src, out in jobs:
        if not os.path.exists(out):
            continue
        g = GoFile(src)
        pk = {}
        for alias, path in g.imports.items():
            if path.startswith("fill/"):
                d = os.path.join(fill, path[len("fill/"):])
                decls = []
                for f in sorted(os.listdir(d)):
                    if f.endswith(".go") and "_test" not in f and not f.endswith(".out.go") and f != "valyjson_utils.go":
                        decls += GoFile(os.path.join(d, f)).decls
                pk[alias] = decls
        stars = [(n, t) for _, ss in g.decls for (n, t, _) in ss if t[0] == "star"]
        keys = sorted({n for _, ss in g.decls for (n, t, _) in ss if t == ("ident", "string")})
        lean = PRELUDE
        for i, (p, ds) in enumerate(sorted(pk.items())):
            lean += f"\ndef pkg{i} : List TypeDecl := {llist(tdecl, ds)}\n"
        body = "none"
        for i, (p, ds) in reversed(list(enumerate(sorted(pk.items())))):
            body = f"if p = {lstr(p)} then some pkg{i} else {body}"
        ext = "[" + ", ".join(f"({lstr(p)}, pkg{i})" for i, (p, _) in enumerate(sorted(pk.items()))) + "]"
        lean += f"\ndef pkgs : GetPackage := fun p _ => {body}\n"
        lean += f"def file : List TypeDecl := {llist(tdecl, g.decls)}\n"
        lean += f"#eval run pkgs file [{', '.join(f'({lstr(n)}, {expr(t)})' for n, t in stars)}] {ext}\n"
        with tempfile.NamedTemporaryFile("w", suffix=".lean", delete=False) as tf:
            tf.write(lean)
        r = subprocess.run(["lake", "env", "lean", "-M", "6000", tf.name], cwd=LEAN, capture_output=True, text=True)
        if r.returncode != 0:
            print(src, "lean failed:", (r.stdout + r.stderr)[:2000])
            sys.exit(1)
        os.unlink(tf.name)
        model_lines = [norm(l, keys) for l in r.stdout.split("\n") if l.strip()]
        bad = [l for l in model_lines if l.startswith("!!")]
        mine = functions([l for l in model_lines if not l.startswith("!!")])
        gold = golden(out, keys)
        gm = {f[0]: f for f in gold}
        mm = {f[0]: f for f in mine}
        order = [f[0] for f in gold if f[0] in mm] == [f[0] for f in mine if f[0] in gm]
        n_eq = 0
        for h, f in gm.items():
            total["functions"] += 1
            if h not in mm:
                total["missing"].append((tail(out), h))
            elif mm[h] == f:
                n_eq += 1
            else:
                total["different"].append((tail(out), h))
                if verbose:
                    import difflib
                    print("\n".join(difflib.unified_diff(f, mm[h], "golden", "model", lineterm="", n=2)))
        for h in mm:
            if h not in gm:
                total["extra"].append((tail(out), h))
        total["equal"] += n_eq
        print(f"{tail(out)}: {n_eq} of {len(gm)} equal, order {'equal' if order else 'DIFFERENT'}" +
              (f"; {bad}" if bad else ""))
    print(json.dumps({k: (v if isinstance(v, int) else len(v)) for k, v in total.items()}))
    for k in ("different", "missing", "extra"):
        for x in total[k]:
            print(k, *x)


if __name__ == "__main__":
    main()
