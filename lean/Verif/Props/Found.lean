import Verif.Props.Link
import Verif.Props.Lookup

/-!
# C53: types of other packages that the generator looks into

For a field of type `p.T` the generator searches the imported package (C52).  Whether it finds
a struct there or nothing, the statements for the field are the same: the methods of `p.T` are
called.
-/

namespace VJ

/-- The same types, and `m` found to be a struct. -/
def Env.found (Γ : Env) (m : Nat) (strict : Bool) (fds : List FieldDecl) : Env :=
  ⟨fun n => if n = m then some (.struct strict fds) else Γ.decl n, Γ.ext⟩

section
variable [Ext]

/-- **C53.** Code generation for a field of a type of another package does not depend on
whether that type was found to be a struct or not found: decoding, encoding, the test for zero
and the reset of the field are the same. -/
theorem C53_found_struct {Γ : Env} {m : Nat} {strict : Bool} {fds : List FieldDecl} (hm : Γ.decl m = none)
    {fd : FieldDecl} (hfd : fd.typ = .sel m) :
    (∀ k, genFieldFill (Γ.found m strict fds) k fd = genFieldFill Γ k fd) ∧
    genFieldMarshal (Γ.found m strict fds) fd = genFieldMarshal Γ fd ∧
    (∀ k, zTest (Γ.found m strict fds) k ((Γ.found m strict fds).denoted fd.typ) fd.typ =
      zTest Γ k (Γ.denoted fd.typ) fd.typ) ∧
    (∀ k lvl, genReset (Γ.found m strict fds) k lvl fd.typ = genReset Γ k lvl fd.typ) := by
  have hd : (Γ.found m strict fds).denoted (.sel m) = .structT := by
    simp [Env.denoted, Env.denotedIdent, Env.found, Decl.spec]
  have hd' : Γ.denoted (.sel m) = .sel m := by
    simp [Env.denoted, Env.denotedIdent, hm]
  have hp : ∀ b tags b1 b2, Fld.prepare (Γ.found m strict fds) b (.sel m) tags b1 b2 =
      Fld.prepare Γ b (.sel m) tags b1 b2 := by
    intro b tags b1 b2
    unfold Fld.prepare
    simp only [hd, hd', TExpr.isOrdinal]
    rfl
  have hr : ∀ b tags b1 b2, (Fld.prepare Γ b (.sel m) tags b1 b2).refx = .sel m := by
    intro b tags b1 b2
    unfold Fld.prepare
    simp only [hd', TExpr.isOrdinal]
    rfl
  refine ⟨?_, ?_, ?_, ?_⟩
  · intro k
    unfold genFieldFill
    rw [hfd, hp]
    have ht : typedValue (Γ.found m strict fds) k (Fld.prepare Γ true (.sel m) fd.tags false false)
        (.const fd.tags.jsonName) =
        typedValue Γ k (Fld.prepare Γ true (.sel m) fd.tags false false) (.const fd.tags.jsonName) := by
      cases k with
      | zero => rfl
      | succ k =>
        unfold typedValue
        simp only [hr, hd, hd', TExpr.isOrdinal]
        rfl
    simp only [ht]
  · unfold genFieldMarshal
    rw [hfd, hp]
    simp only [hr]
  · intro k
    rw [hfd, hd, hd']
    unfold zTest
    cases k <;> rfl
  · intro k lvl
    rw [hfd]
    unfold genReset
    rw [hd, hd']
    cases k <;> rfl

end

namespace Examples
open Sample
attribute [local instance] Sample.ext

/-- A file of the module `ex.org/m` with a struct that holds a `Base` of the package `c`, by
value and behind a pointer. -/
def orderFile : List TypeDecl :=
  [⟨some [str "// json:strict"],
     [⟨str "Order", .struct [⟨[str "Title"], .ident (str "string"), some (str "`json:\"title\"`")⟩,
        ⟨[str "First"], .sel (str "c") (str "Base"), some (str "`json:\"first\"`")⟩,
        ⟨[str "Last"], .star (.sel (str "c") (str "Base")), some (str "`json:\"last\"`")⟩], none⟩]⟩]

def shopProject : Project :=
  projectOf (str "ex.org/m") (str "/w/m") (fun _ => []) shopParse shopDirs shopImports

/-- `c.Base` is found, and is a struct. -/
theorem C53_base_found : shopProject.seen (str "c") (str "Base") = .struct := by decide +kernel

def orderTable : List (Nat × Decl) :=
  [(identId (str "Order"), .struct true
      [⟨.prim .string, { jsonName := str "title" }⟩,
       ⟨.sel (selId (str "c") (str "Base")), { jsonName := str "first" }⟩,
       ⟨.star (.sel (selId (str "c") (str "Base"))), { jsonName := str "last" }⟩])]

/-- The file is turned into these declarations. -/
theorem C53_order (ext : Nat → Methods) :
    link shopProject 5 orderFile ext = .ok ⟨fun n => orderTable.lookup n, ext⟩ := by
  have h1 : getNormalized shopProject.pkgs 5 orderFile = .ok [⟨str "Order", [str "strict"],
      .struct [⟨[str "Title"], .ident (str "string"), some (str "`json:\"title\"`")⟩,
        ⟨[str "First"], .sel (str "c") (str "Base"), some (str "`json:\"first\"`")⟩,
        ⟨[str "Last"], .star (.sel (str "c") (str "Base")), some (str "`json:\"last\"`")⟩]⟩] := by
    decide +kernel
  rw [link, h1, Out.ok_bind]
  have h2 : declTable shopProject [⟨str "Order", [str "strict"],
      .struct [⟨[str "Title"], .ident (str "string"), some (str "`json:\"title\"`")⟩,
        ⟨[str "First"], .sel (str "c") (str "Base"), some (str "`json:\"first\"`")⟩,
        ⟨[str "Last"], .star (.sel (str "c") (str "Base")), some (str "`json:\"last\"`")⟩]⟩]
      orderFile (fileSpecs orderFile) = .ok orderTable := by decide +kernel
  rw [h2]
  rfl

/-- The package `c`, where methods are generated for `Base` as well. -/
def baseEnv : Env :=
  ⟨fun n => if n = identId (str "Base") then some (.struct false [⟨.prim .uint16, { jsonName := str "rev" }⟩]) else none,
    fun _ => .loop⟩

/-- The methods `Order` is compiled with. -/
def orderEnv : Env :=
  ⟨fun n => orderTable.lookup n,
    fun n => if n = selId (str "c") (str "Base") then baseEnv.methods 5 (identId (str "Base")) else .loop⟩

set_option maxRecDepth 20000 in
/-- From the files of two packages to a value. -/
theorem C53_order_read : Fills orderEnv (identId (str "Order"))
    (.obj [(str "last", .obj [(str "rev", .num (str "9"))]), (str "first", .obj [(str "rev", .num (str "7"))])])
    (.struct [.str [], .struct [.int 0], .nil]) none
    (.struct [.str [], .struct [.int 7], .ptr (.struct [.int 9])]) := ⟨5, rfl⟩

set_option maxRecDepth 20000 in
/-- And back. -/
theorem C53_order_written : Marshals orderEnv (identId (str "Order"))
    (some (.struct [.str (str "t"), .struct [.int 7], .nil]))
    (.ok (str "{\"title\":\"t\",\"first\":{\"rev\":7},\"last\":null}")) := ⟨5, rfl⟩

end Examples

end VJ
