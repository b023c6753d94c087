import Verif.Proof.Same
import Verif.Props.Sample

/-!
# C55: a type's methods depend on nothing but the declarations it needs
-/

namespace VJ

section

variable [Ext]

/-- **C55.** Types of two packages (or of one) that are declared alike, in terms of types
declared alike, behave alike: decoding, encoding, `IsZero`, `Reset` and the zero value. -/
theorem C55_alike {R : Nat → Nat → Prop} {Γ Δ : Env} (hA : DeclaredAlike R Γ Δ) {n m : Nat} (h : R n m) :
    SameBehaviour Γ n Δ m := by
  have hk (k : Nat) := methods_same hA k n m h
  refine ⟨?_, ?_, ?_, ?_, ?_, ?_, ?_⟩
  · intro data s e s'; simp only [Unmarshals, hk]
  · intro v s r; simp only [FillsTo, hk]
  · intro r w e w'; simp only [MarshalsTo, hk]
  · intro r x; simp only [Marshals, hk]
  · intro v b; simp only [IsZeroIs, hk]
  · intro v v'; simp only [ResetsTo, hk]
  · intro z; simp only [ZeroIs, hk]

omit [Ext] in
theorem sameT_refl {P : Nat → Prop} {t : TExpr} (h : ∀ n, TypeMentions t n → P n) :
    SameT (fun a b => a = b ∧ P a) t t := by
  induction t with
  | prim p => exact .prim p
  | named n => exact .named ⟨rfl, h n (.named n)⟩
  | sel n => exact .sel ⟨rfl, h n (.sel n)⟩
  | time => exact .time
  | uuid => exact .uuid
  | structT => exact .structT
  | star t ih => exact .star (ih fun n hn => h n (.star hn))
  | slice t ih => exact .slice (ih fun n hn => h n (.slice hn))
  | array l t ih => exact .array l (ih fun n hn => h n (.array l hn))
  | map t ih => exact .map (ih fun n hn => h n (.map hn))

omit [Ext] in
theorem sameDecl_refl {P : Nat → Prop} {d : Decl} (h : ∀ n, DeclMentions d n → P n) :
    SameDecl (fun a b => a = b ∧ P a) d d := by
  cases d with
  | struct strict fs =>
    refine .struct strict ?_
    have : ∀ gs : List FieldDecl, (∀ f ∈ gs, f ∈ fs) → List.Forall₂ (SameField (fun a b => a = b ∧ P a)) gs gs := by
      intro gs
      induction gs with
      | nil => intro _; exact .nil
      | cons g gs ih =>
        intro hg
        exact .cons ⟨sameT_refl fun n hn => h n (.field (hg g (by simp)) hn), rfl⟩ (ih fun f hf => hg f (by simp [hf]))
    exact this fs fun _ h => h
  | «alias» t => exact .alias (sameT_refl fun n hn => h n (.alias hn))

/-- **C55.** Whatever else the package declares, adds, removes or changes: as long as the types
that type `n` needs (itself, those its declaration mentions, and so on) are declared the same, its
methods are the same. -/
theorem C55_unrelated {Γ Δ : Env} {n : Nat}
    (hd : ∀ m, Needs Γ n m → Δ.decl m = Γ.decl m)
    (hx : ∀ m, Needs Γ n m → Γ.decl m = none → Δ.ext m = Γ.ext m) : SameBehaviour Γ n Δ n := by
  have trans : ∀ {a b c : Nat}, Needs Γ a b → ∀ {d : Decl}, Γ.decl b = some d → DeclMentions d c → Needs Γ a c := by
    intro a b c h
    induction h with
    | self n => intro d hd hc; exact .step hd hc (.self _)
    | step hd' hi _ ih => intro d hd hc; exact .step hd' hi (ih hd hc)
  refine C55_alike (R := fun a b => a = b ∧ Needs Γ n a) ?_ ⟨rfl, .self n⟩
  rintro a _ ⟨rfl, ha⟩
  cases hda : Γ.decl a with
  | none => exact .inr ⟨rfl, (hd a ha).trans hda, (hx a ha hda).symm⟩
  | some d =>
    exact .inl ⟨d, d, rfl, (hd a ha).trans hda, sameDecl_refl fun m hm => trans ha hda hm⟩

omit [Ext] in
theorem sameT_rename (σ : Nat → Nat) (t : TExpr) : SameT (fun a b => b = σ a) t (renameT σ t) := by
  induction t with
  | prim p => exact .prim p
  | named n => exact .named rfl
  | sel n => exact .sel rfl
  | time => exact .time
  | uuid => exact .uuid
  | structT => exact .structT
  | star t ih => exact .star ih
  | slice t ih => exact .slice ih
  | array l t ih => exact .array l ih
  | map t ih => exact .map ih

/-- **C55.** Renaming the types of a package, even giving two types that are declared alike the same
name, changes no method. -/
theorem C55_renamed {Γ Δ : Env} (σ : Nat → Nat)
    (hd : ∀ n, Δ.decl (σ n) = (Γ.decl n).map (renameDecl σ))
    (hx : ∀ n, Γ.decl n = none → Δ.ext (σ n) = Γ.ext n) (n : Nat) : SameBehaviour Γ n Δ (σ n) := by
  refine C55_alike (R := fun a b => b = σ a) ?_ rfl
  rintro a _ rfl
  cases hda : Γ.decl a with
  | none => exact .inr ⟨rfl, by rw [hd, hda]; rfl, (hx a hda).symm⟩
  | some d =>
    refine .inl ⟨d, renameDecl σ d, rfl, by rw [hd, hda]; rfl, ?_⟩
    cases d with
    | struct strict fs =>
      refine .struct strict ?_
      clear hda
      induction fs with
      | nil => exact .nil
      | cons f fs ih => exact .cons ⟨sameT_rename σ f.typ, rfl⟩ ih
    | «alias» t => exact .alias (sameT_rename σ t)

/-- **C55.** In particular the order and the numbering of the declarations do not matter, and two
types of one package with the same declaration behave alike. -/
theorem C55_twins {Γ : Env} {n m : Nat} {d : Decl} (hn : Γ.decl n = some d) (hm : Γ.decl m = some d) :
    SameBehaviour Γ n Γ m := by
  refine C55_alike (R := fun a b => a = b ∨ (a = n ∧ b = m)) ?_ (.inr ⟨rfl, rfl⟩)
  have ht : ∀ t : TExpr, SameT (fun a b => a = b ∨ (a = n ∧ b = m)) t t := by
    intro t
    induction t with
    | prim p => exact .prim p
    | named n => exact .named (.inl rfl)
    | sel n => exact .sel (.inl rfl)
    | time => exact .time
    | uuid => exact .uuid
    | structT => exact .structT
    | star t ih => exact .star ih
    | slice t ih => exact .slice ih
    | array l t ih => exact .array l ih
    | map t ih => exact .map ih
  have hs : ∀ d : Decl, SameDecl (fun a b => a = b ∨ (a = n ∧ b = m)) d d := by
    intro d
    cases d with
    | struct strict fs =>
      refine .struct strict ?_
      induction fs with
      | nil => exact .nil
      | cons f fs ih => exact .cons ⟨ht f.typ, rfl⟩ (ih)
    | «alias» t => exact .alias (ht t)
  rintro a b (rfl | ⟨rfl, rfl⟩)
  · cases hda : Γ.decl a with
    | none => exact .inr ⟨rfl, rfl, rfl⟩
    | some d => exact .inl ⟨d, d, rfl, rfl, hs d⟩
  · exact .inl ⟨d, d, hn, hm, hs d⟩

end

namespace Examples

open Sample

attribute [local instance] Sample.ext

/-- the package without User, and with another Blob -/
def Δ : Env where
  decl n := match n with
    | 0 => none
    | 4 => some (.alias (.prim .string))
    | n => Γ.decl n
  ext := Γ.ext

/-- what type Bag needs -/
theorem bag_needs {m : Nat} (h : Needs Γ 23 m) : m = 23 ∨ m = 2 := by
  have base_needs : ∀ {n m : Nat}, Needs Γ n m → n = 2 → m = 2 := by
    intro n m h hn
    induction h with
    | self n => exact hn
    | step hd hi _ ih =>
      subst hn
      cases hd
      cases hi with
      | field hf hm =>
        simp only [base, List.mem_cons, List.not_mem_nil, or_false] at hf
        subst hf
        cases hm
  cases h with
  | self => exact .inl rfl
  | step hd hi h =>
    cases hd
    cases hi with
    | field hf hm =>
      simp only [bag, List.mem_cons, List.not_mem_nil, or_false] at hf
      rcases hf with rfl | rfl | rfl | rfl | rfl | rfl | rfl
      · cases hm with | slice hm => cases hm
      · cases hm with | map hm => cases hm
      · cases hm with | array _ hm => cases hm
      · cases hm with | slice hm => cases hm with | star hm => cases hm
      · cases hm with | slice hm => cases hm; exact .inr (base_needs h rfl)
      · cases hm with | map hm => cases hm with | star hm => cases hm; exact .inr (base_needs h rfl)
      · cases hm with | slice hm => cases hm with | slice hm => cases hm

/-- Bag (slices, maps and arrays of integers and of Base) behaves the same when User goes and Blob
changes. -/
theorem bag_unrelated : SameBehaviour Γ 23 Δ 23 := by
  refine C55_unrelated ?_ ?_
  · intro m h; rcases bag_needs h with rfl | rfl <;> rfl
  · intro m _ _; rfl

/-- Holder needs Blob, and does not behave the same: `{"blob":"x"}` is not base64 -/
example : (∃ e x, Fills Γ 5 (.obj [(str "blob", .str (str "x"))]) (.struct [.nil]) (some e) x) ∧
    Fills Δ 5 (.obj [(str "blob", .str (str "x"))]) (.struct [.str []]) none (.struct [.str (str "x")]) :=
  ⟨⟨_, _, 5, rfl⟩, ⟨5, rfl⟩⟩

/-- every type under another number -/
def moved : Env where
  decl n := if n % 2 = 1 then (Γ.decl (n / 2)).map (renameDecl fun n => 2 * n + 1) else none
  ext _ := .unsupp

example (n : Nat) : SameBehaviour Γ n moved (2 * n + 1) := by
  refine C55_renamed (fun n => 2 * n + 1) ?_ (fun _ _ => rfl) n
  intro n
  have h1 : (2 * n + 1) % 2 = 1 := by omega
  have h2 : (2 * n + 1) / 2 = n := by omega
  simp only [moved, h1, h2, if_true]

/-- User, declared twice -/
example : SameBehaviour (⟨fun n => if n < 2 then some (.struct false user) else none, Γ.ext⟩ : Env) 0
    (⟨fun n => if n < 2 then some (.struct false user) else none, Γ.ext⟩ : Env) 1 :=
  C55_twins rfl rfl

end Examples

end VJ
