import Verif.Spec.Reset
import Verif.Proof.Zero

/-!
# What `Reset` leaves
-/

namespace VJ
set_option linter.unusedSectionVars false
set_option linter.unusedSimpArgs false

variable [Ext] {Γ : Env} {X : Nat → GoVal → Prop} {S : Nat → Prop}

theorem ResetPackage.types {d : Decl} {n : Nat} {t : TExpr} (hP : ResetPackage Γ X S) (hn : S n) (hd : Γ.decl n = some d)
    (ht : t ∈ d.types) : Good S t :=
  ⟨fun m hm => hP.closed n d t m hn hd ht hm, hP.noAnon n d t hn hd ht⟩

theorem ResetPackage.alias {n : Nat} {t : TExpr} (hP : ResetPackage Γ X S) (hn : S n) (hd : Γ.decl n = some (.alias t)) : Good S t :=
  hP.types hn hd (by simp [Decl.types])

theorem ResetPackage.field {n : Nat} {strict : Bool} {fields : List FieldDecl} {fd : FieldDecl} (hP : ResetPackage Γ X S) (hn : S n)
    (hd : Γ.decl n = some (.struct strict fields)) (hf : fd ∈ fields) : Good S fd.typ :=
  hP.types hn hd (by simp only [Decl.types, List.mem_map]; exact ⟨fd, hf, rfl⟩)

/-- a zero value of every type, found with enough nested calls -/
theorem ResetPackage.zeroT (hP : ResetPackage Γ X S) {t : TExpr} (hg : Good S t) :
    Term (fun k => zeroT (Γ.methods k) t) (fun z => ZeroOf Γ t z ∧ HasType Γ X t z) := by
  have h : Term (fun k => VJ.zeroT (Γ.methods k) t) (HasType Γ X t) := by
    refine zeroT_term hg fun m hm e he => ?_
    obtain ⟨z, ⟨k0, hk⟩, ht⟩ := hP.zeros m (hg.names m (Package.zero.TExpr_inline_names hm))
    exact ⟨z, ht.name (.named m) he, k0, fun k hle => ((methods_mono Γ hle m).zero).eq_of_ok hk⟩
  obtain ⟨z, hz, k0, hk⟩ := h
  exact ⟨z, ⟨⟨k0, hk k0 (Nat.le_refl _)⟩, hz⟩, k0, hk⟩

theorem reset_of_ir {n k1 : Nat} {d : Decl} {ir : ResetIR} (hd : Γ.decl n = some d) (hg : genResetDecl Γ k1 d = .ok ir) {v : GoVal}
    {P : GoVal → Prop} (h : Term (fun k => runResetDecl (Γ.methods k) ir v) P) :
    Term (fun k => (Γ.methods k n).reset v) P := by
  refine Term.succ (h.congr k1 (o' := fun k => genResetDecl Γ k d >>= fun ir => runResetDecl (Γ.methods k) ir v) fun k hk => ?_)
    (fun k => by rw [methods_some hd]; rfl)
  have : genResetDecl Γ k d = .ok ir := by
    clear h
    induction hk with
    | refl => exact hg
    | step _ ih => exact (genResetDecl_mono Γ _ d).eq_of_ok ih
  simp only [this, Out.ok_bind]

/-- what is known of a value after `Reset` -/
structure ResetLeaves (Γ : Env) (X : Nat → GoVal → Prop) (t : TExpr) (old new : GoVal) : Prop where
  typed : HasType Γ X t new
  clears : Clears Γ t old new
  asNew : NoLeftovers Γ t old → AsNew Γ t new

theorem ResetLeaves.zero {t : TExpr} {old z : GoVal} (h : ZeroOf Γ t z ∧ HasType Γ X t z) : ResetLeaves Γ X t old z :=
  ⟨h.2, .zero h.1, fun _ => .zero h.1⟩

theorem mapOut_term {f : Nat → GoVal → Out GoVal} {P : GoVal → GoVal → Prop} : ∀ {vs : List GoVal},
    (∀ v ∈ vs, Term (fun k => f k v) (P v)) →
    Term (fun k => mapOut (f k) vs) (fun ws => ws.length = vs.length ∧
      ∀ (i : Nat) (v w : GoVal), vs[i]? = some v → ws[i]? = some w → P v w)
  | [], _ => .pure ⟨rfl, by simp⟩
  | v :: vs, h => by
    refine (h v (by simp)).bind fun w hw => ?_
    refine (mapOut_term (vs := vs) fun v' hv => h v' (by simp [hv])).bind fun ws hws => .pure ⟨by simp [hws.1], ?_⟩
    intro i v' w' h1 h2
    cases i with
    | zero => simp at h1 h2; subst h1; subst h2; exact hw
    | succ i => exact hws.2 i v' w' (by simpa using h1) (by simpa using h2)

theorem mapOutKV_term {f : Nat → GoVal → Out GoVal} {P : GoVal → GoVal → Prop} : ∀ {kvs : List (Str × GoVal)},
    (∀ kv ∈ kvs, Term (fun k => f k kv.2) (P kv.2)) →
    Term (fun k => mapOutKV (f k) kvs) (fun ws => ws.map (·.1) = kvs.map (·.1) ∧
      ∀ (i : Nat) (v w : Str × GoVal), kvs[i]? = some v → ws[i]? = some w → P v.2 w.2)
  | [], _ => .pure ⟨rfl, by simp⟩
  | (key, v) :: vs, h => by
    refine (h (key, v) (by simp)).bind fun w hw => ?_
    refine (mapOutKV_term (kvs := vs) fun v' hv => h v' (by simp [hv])).bind fun ws hws => .pure ⟨by simp [hws.1], ?_⟩
    intro i v' w' h1 h2
    cases i with
    | zero => simp at h1 h2; subst h1; subst h2; exact hw
    | succ i => exact hws.2 i v' w' (by simpa using h1) (by simpa using h2)

theorem resets_term {k : Nat} : ∀ {fields : List FieldDecl} {xs : List RIR} {gs : List GoVal},
    genResets Γ k fields = .ok xs → gs.length = fields.length →
    (∀ (i : Nat) (fd : FieldDecl) (g : GoVal), fields[i]? = some fd → gs[i]? = some g →
      ∀ x, genReset Γ k 6 fd.typ = .ok x → Term (fun k => runReset (Γ.methods k) x g) (ResetLeaves Γ X fd.typ g)) →
    Term (fun k => runResets (Γ.methods k) xs gs) (fun ws => ws.length = fields.length ∧
      ∀ (i : Nat) (fd : FieldDecl) (g w : GoVal), fields[i]? = some fd → gs[i]? = some g → ws[i]? = some w →
        ResetLeaves Γ X fd.typ g w)
  | [], xs, gs, hg, hl, _ => by
    simp only [genResets, Out.ok.injEq] at hg
    subst hg
    cases gs with
    | nil => exact .pure ⟨rfl, by simp⟩
    | cons => cases hl
  | fd :: fds, xs, [], hg, hl, _ => by cases hl
  | fd :: fds, xs, g :: gs, hg, hl, h => by
    simp only [genResets] at hg
    obtain ⟨x, h1, hg⟩ := Out.bind_eq_ok.1 hg
    obtain ⟨xs', h2, hg⟩ := Out.bind_eq_ok.1 hg
    simp only [Out.pure_eq, Out.ok.injEq] at hg
    subst hg
    refine (h 0 fd g rfl rfl x h1).bind fun w hw => ?_
    refine (resets_term (fields := fds) (gs := gs) h2 (by simpa using hl) fun i fd' g' hf hg' =>
      h (i + 1) fd' g' (by simpa using hf) (by simpa using hg')).bind fun ws hws => .pure ⟨by simp [hws.1], ?_⟩
    intro i fd' g' w' hf hg' hw'
    cases i with
    | zero => simp at hf hg' hw'; subst hf; subst hg'; subst hw'; exact hw
    | succ i => exact hws.2 i fd' g' w' (by simpa using hf) (by simpa using hg') (by simpa using hw')

theorem asNew_zero_is {t u : TExpr} (hi : Is Γ t u) (hu : u = .time ∨ u = .uuid) {w : GoVal} (h : AsNew Γ t w) : ZeroOf Γ t w := by
  have base : ∀ {w}, AsNew Γ u w → ZeroOf Γ u w := by
    intro w h
    rcases hu with rfl | rfl <;> cases h with
    | zero h => exact h
    | alias he => cases he
    | struct he => cases he
  cases hi with
  | self => exact base h
  | @named n u hd =>
    cases h with
    | zero h => exact h
    | alias he hd' h =>
      cases he
      rw [hd] at hd'
      cases hd'
      exact zeroOf_named.2 ((zeroIs_alias hd).2 (base h))
    | struct he hd' => cases he; rw [hd] at hd'; cases hd'

theorem asNew_star {t : TExpr} {w : GoVal} (h : AsNew Γ (.star t) w) : ZeroOf Γ (.star t) w := by
  cases h with
  | zero h => exact h
  | alias he => cases he
  | struct he => cases he

theorem NoLeftovers.of_alias {e t : TExpr} {n : Nat} {v : GoVal} (he : NameOf e n) (hd : Γ.decl n = some (.alias t))
    (h : NoLeftovers Γ e v) : NoLeftovers Γ t v := by
  cases h with
  | slice => cases he
  | other h1 h2 => exact .other h1 h2
  | alias he' hd' h => cases he.inj he'; rw [hd] at hd'; cases hd'; exact h
  | struct he' hd' => cases he.inj he'; rw [hd] at hd'; cases hd'
  | foreign he' hd' => cases he.inj he'; rw [hd] at hd'; cases hd'

theorem NoLeftovers.of_struct {e : TExpr} {n : Nat} {strict : Bool} {fields : List FieldDecl} {gs : List GoVal} (he : NameOf e n)
    (hd : Γ.decl n = some (.struct strict fields)) (h : NoLeftovers Γ e (.struct gs)) :
    ∀ (i : Nat) (fd : FieldDecl) (g : GoVal), fields[i]? = some fd → gs[i]? = some g → NoLeftovers Γ fd.typ g := by
  cases h with
  | other h1 h2 => exact absurd rfl (h2 gs)
  | alias he' hd' h => cases he.inj he'; rw [hd] at hd'; cases hd'
  | struct he' hd' h => cases he.inj he'; rw [hd] at hd'; cases hd'; exact h
  | foreign he' hd' => cases he.inj he'; rw [hd] at hd'; cases hd'

theorem ResetLeaves.alias {e t : TExpr} {n : Nat} {old new : GoVal} (he : NameOf e n) (hd : Γ.decl n = some (.alias t))
    (h : ResetLeaves Γ X t old new) : ResetLeaves Γ X e old new :=
  ⟨.alias he hd h.typed, .alias he hd h.clears, fun hn => .alias he hd (h.asNew (hn.of_alias he hd))⟩

/-- elements cleared, then the slice emptied -/
theorem ResetLeaves.slice {t : TExpr} {es es' sp : List GoVal} (hb : t ≠ .prim .byte) (hs : ∀ v ∈ sp, HasType Γ X t v)
    (hl : es'.length = es.length)
    (h : ∀ (i : Nat) (v w : GoVal), es[i]? = some v → es'[i]? = some w → ResetLeaves Γ X t v w) :
    ResetLeaves Γ X (.slice t) (.slice es sp) (.slice [] (es' ++ sp)) := by
  have hmem : ∀ w ∈ es', ∃ v ∈ es, ResetLeaves Γ X t v w := by
    intro w hw
    obtain ⟨i, hi, rfl⟩ := List.mem_iff_getElem.1 hw
    refine ⟨es[i]'(by omega), List.getElem_mem _, h i _ _ (List.getElem?_eq_getElem (by omega)) (List.getElem?_eq_getElem hi)⟩
  refine ⟨.slice hb (by simp) ?_, .slice (by simp [hl]), ?_⟩
  · intro v hv
    rcases List.mem_append.1 hv with hv | hv
    · obtain ⟨_, _, h'⟩ := hmem v hv; exact h'.typed
    · exact hs v hv
  · intro hn
    cases hn with
    | other h1 h2 => exact absurd rfl (h1 es sp)
    | alias he => cases he
    | foreign he => cases he
    | slice he hm h1 h2 =>
      refine .slice ?_ ?_
      · intro hni x hx
        rcases List.mem_append.1 hx with hx | hx
        · obtain ⟨v, hv, h'⟩ := hmem x hx; exact h'.asNew (he v hv)
        · exact h1 hni x hx
      · intro hlo x hx
        rcases List.mem_append.1 hx with hx | hx
        · obtain ⟨v, hv, h'⟩ := hmem x hx
          have ha := h'.asNew (he v hv)
          by_cases hst : ∃ u, t = .star u
          · obtain ⟨u, rfl⟩ := hst; exact asNew_star ha
          · have hp : pointee t = t := by
              cases t <;> first | rfl | exact absurd ⟨_, rfl⟩ hst
            simp only [LosesErrors, hp] at hlo
            rcases hlo with h | h | ⟨val, h⟩
            · exact asNew_zero_is h (Or.inl rfl) ha
            · exact asNew_zero_is h (Or.inr rfl) ha
            · exact absurd h (hm val)
        · exact h2 hlo x hx

/-- a type that is reset by an assignment of its zero value, or by its own method -/
theorem genReset_other {k lvl : Nat} {t : TExpr} {x : RIR} (hg : genReset Γ k lvl t = .ok x)
    (h1 : ∀ u, Γ.denoted t ≠ .slice u) (h2 : ∀ n u, Γ.denoted t ≠ .array n u) (h3 : Γ.denoted t ≠ .uuid) (h4 : Γ.denoted t ≠ .time)
    (h5 : ∀ u, Γ.denoted t ≠ .map u) :
    (x = .const (Γ.denoted t) ∧ Compares Γ (Γ.denoted t)) ∨ (∃ n, NameOf t n ∧ x = .method n) := by
  have : (do
      let b ← zeroKnown Γ k (Γ.denoted t)
      if b then return .const (Γ.denoted t)
      else match t with
        | .named n | .sel n => return .method n
        | _ => .unsupp : Out RIR) = .ok x := by
    unfold genReset at hg
    split at hg
    · rename_i h; exact absurd h (h1 _)
    · rename_i h; exact absurd h (h2 _ _)
    · rename_i h; exact absurd h h3
    · rename_i h; exact absurd h h4
    · rename_i h; exact absurd h (h5 _)
    · exact hg
  obtain ⟨b, hb, hg⟩ := Out.bind_eq_ok.1 this
  cases b with
  | true =>
    simp only [if_true, Out.pure_eq, Out.ok.injEq] at hg
    exact Or.inl ⟨hg.symm, zeroKnown_true hb⟩
  | false =>
    simp only [Bool.false_eq_true, if_false] at hg
    split at hg
    · simp only [Out.pure_eq, Out.ok.injEq] at hg; exact Or.inr ⟨_, .named _, hg.symm⟩
    · simp only [Out.pure_eq, Out.ok.injEq] at hg; exact Or.inr ⟨_, .sel _, hg.symm⟩
    · cases hg

/-- the type is a slice or a map declared directly -/
def Collection (Γ : Env) (n : Nat) : Prop :=
  (∃ u, Γ.decl n = some (.alias (.slice u))) ∨ ∃ u, Γ.decl n = some (.alias (.map u))

theorem reset_term (hP : ResetPackage Γ X S) {t : TExpr} {v : GoVal} (hv : HasType Γ X t v) (hg : Good S t) :
    (∀ k lvl x, genReset Γ k lvl t = .ok x → Term (fun k => runReset (Γ.methods k) x v) (ResetLeaves Γ X t v)) ∧
    (∀ n, NameOf t n → ¬ Collection Γ n → Term (fun k => (Γ.methods k n).reset v) (ResetLeaves Γ X t v)) := by
  have const : ∀ {t : TExpr} {v : GoVal}, Good S t → Term (fun k => runReset (Γ.methods k) (.const t) v) (ResetLeaves Γ X t v) :=
    fun hg => (hP.zeroT hg).imp fun z hz => .zero hz
  induction hv with
  | @prim p v h =>
    refine ⟨fun k lvl x hx => ?_, fun n hn => by cases hn⟩
    rcases genReset_other hx (by intros; exact fun h => by cases h) (by intros; exact fun h => by cases h) (fun h => by cases h) (fun h => by cases h) (by intros; exact fun h => by cases h) with ⟨rfl, _⟩ | ⟨n, hn, _⟩
    · exact const hg
    · cases hn
  | time t =>
    refine ⟨fun k lvl x hx => ?_, fun n hn => by cases hn⟩
    have : x = .const .time := by cases lvl <;> (cases hx; rfl)
    subst this
    exact const hg
  | uuid h =>
    refine ⟨fun k lvl x hx => ?_, fun n hn => by cases hn⟩
    have : x = .const .uuid := by cases lvl <;> (cases hx; rfl)
    subst this
    exact const hg
  | nilPtr t =>
    refine ⟨fun k lvl x hx => ?_, fun n hn => by cases hn⟩
    rcases genReset_other hx (by intros; exact fun h => by cases h) (by intros; exact fun h => by cases h) (fun h => by cases h) (fun h => by cases h) (by intros; exact fun h => by cases h) with ⟨rfl, _⟩ | ⟨n, hn, _⟩
    · exact const hg
    · cases hn
  | ptr h =>
    refine ⟨fun k lvl x hx => ?_, fun n hn => by cases hn⟩
    rcases genReset_other hx (by intros; exact fun h => by cases h) (by intros; exact fun h => by cases h) (fun h => by cases h) (fun h => by cases h) (by intros; exact fun h => by cases h) with ⟨rfl, _⟩ | ⟨n, hn, _⟩
    · exact const hg
    · cases hn
  | nilSlice t =>
    refine ⟨fun k lvl x hx => ?_, fun n hn => by cases hn⟩
    have hz : ResetLeaves Γ X (.slice t) .nil .nil := .zero ⟨⟨0, rfl⟩, .nilSlice t⟩
    unfold genReset at hx
    simp only [Env.denoted] at hx
    cases lvl with
    | zero => cases hx
    | succ lvl =>
      simp only at hx
      split at hx
      · cases hx; exact .pure hz
      · obtain ⟨y, _, hx⟩ := Out.bind_eq_ok.1 hx
        simp only [Out.pure_eq, Out.ok.injEq] at hx
        subst hx
        exact .pure hz
  | @slice t es sp hb h hs ih _ =>
    refine ⟨fun k lvl x hx => ?_, fun n hn => by cases hn⟩
    unfold genReset at hx
    simp only [Env.denoted] at hx
    cases lvl with
    | zero => cases hx
    | succ lvl =>
      simp only at hx
      rw [if_neg (fun h => hb (isByte_iff.1 h))] at hx
      obtain ⟨y, hy, hx⟩ := Out.bind_eq_ok.1 hx
      simp only [Out.pure_eq, Out.ok.injEq] at hx
      subst hx
      simp only [runReset]
      exact (mapOut_term fun v hv => (ih v hv hg.slice).1 k lvl y hy).bind fun es' hes => .pure (.slice hb hs hes.1 hes.2)
  | bytes b =>
    refine ⟨fun k lvl x hx => ?_, fun n hn => by cases hn⟩
    unfold genReset at hx
    simp only [Env.denoted] at hx
    cases lvl with
    | zero => cases hx
    | succ lvl =>
      cases hx
      exact .pure ⟨.bytes [], .bytes, fun _ => .bytes⟩
  | @array t n es hb hl h _ =>
    refine ⟨fun k lvl x hx => ?_, fun n hn => by cases hn⟩
    have : x = .const (.array n t) := by cases lvl <;> (cases hx; rfl)
    subst this
    exact const hg
  | @barr n b hl =>
    refine ⟨fun k lvl x hx => ?_, fun n hn => by cases hn⟩
    have : x = .const (.array n (.prim .byte)) := by cases lvl <;> (cases hx; rfl)
    subst this
    exact const hg
  | nilMap t =>
    refine ⟨fun k lvl x hx => ?_, fun n hn => by cases hn⟩
    have : x = .clearMap := by cases lvl <;> (cases hx; rfl)
    subst this
    exact .pure (.zero ⟨⟨0, rfl⟩, .nilMap t⟩)
  | @map t kvs hk h _ =>
    refine ⟨fun k lvl x hx => ?_, fun n hn => by cases hn⟩
    have : x = .clearMap := by cases lvl <;> (cases hx; rfl)
    subst this
    simp only [runReset]
    split
    · exact .pure (.zero ⟨⟨0, rfl⟩, .nilMap t⟩)
    · exact .pure ⟨.map (by simp) (by simp), .map (by omega), fun _ => .map t⟩
  | @alias e u n v he hd h ih =>
    have hgu : Good S u := hP.alias (hg.name he) hd
    obtain ⟨ih1, ih2⟩ := ih hgu
    have hden : Γ.denoted e = u := by cases he <;> simp [Env.denoted, Env.denotedIdent, hd, Decl.spec]
    have part2 : ¬ Collection Γ n → Term (fun k => (Γ.methods k n).reset v) (ResetLeaves Γ X e v) := by
      intro hc
      obtain ⟨k1, ir, hir⟩ := hP.generated n _ (hg.name he) hd
      refine (reset_of_ir hd hir ?_ : Term _ (ResetLeaves Γ X u v)).imp fun w hw => hw.alias he hd
      have single : ∀ x, genReset Γ k1 6 u = .ok x → ir = .single x → Term (fun k => runResetDecl (Γ.methods k) ir v) (ResetLeaves Γ X u v) := by
        rintro x hx rfl
        exact ih1 k1 6 x hx
      have single' : (do let x ← genReset Γ k1 6 u; return .single x : Out ResetIR) = .ok ir →
          Term (fun k => runResetDecl (Γ.methods k) ir v) (ResetLeaves Γ X u v) := by
        intro h
        obtain ⟨x, hx, hh⟩ := Out.bind_eq_ok.1 h
        simp only [Out.pure_eq, Out.ok.injEq] at hh
        exact single x hx hh.symm
      cases u with
      | slice t => exact absurd (Or.inl ⟨_, hd⟩) hc
      | map t => exact absurd (Or.inr ⟨_, hd⟩) hc
      | array l t => cases hir; exact const hgu
      | star t => cases hir
      | structT => cases hir
      | prim p => exact single' hir
      | named m => exact single' hir
      | sel m => exact single' hir
      | time => exact single' hir
      | uuid => exact single' hir
    refine ⟨fun k lvl x hx => ?_, fun m hm hc => by cases hm.inj he; exact part2 hc⟩
    have same : Γ.denoted u = u → (∃ t, u = .slice t) ∨ (∃ n t, u = .array n t) ∨ u = .uuid ∨ u = .time ∨ (∃ t, u = .map t) →
        genReset Γ k lvl e = genReset Γ k lvl u := by
      intro hu hcase
      unfold genReset
      rw [hden, hu]
      rcases hcase with ⟨t, rfl⟩ | ⟨l, t, rfl⟩ | rfl | rfl | ⟨t, rfl⟩ <;> rfl
    have direct : genReset Γ k lvl e = genReset Γ k lvl u → Term (fun k => runReset (Γ.methods k) x v) (ResetLeaves Γ X e v) := by
      intro he'
      exact (ih1 k lvl x (he' ▸ hx)).imp fun w hw => hw.alias he hd
    have other : (∀ t, u ≠ .slice t) → (∀ n t, u ≠ .array n t) → u ≠ .uuid → u ≠ .time → (∀ t, u ≠ .map t) →
        Term (fun k => runReset (Γ.methods k) x v) (ResetLeaves Γ X e v) := by
      intro h1 h2 h3 h4 h5
      rcases genReset_other hx (by rw [hden]; exact h1) (by rw [hden]; exact h2) (by rw [hden]; exact h3) (by rw [hden]; exact h4) (by rw [hden]; exact h5) with ⟨rfl, _⟩ | ⟨m, hm, rfl⟩
      · rw [hden]
        exact (const hgu).imp fun w (hw : ResetLeaves Γ X u v w) => hw.alias he hd
      · cases hm.inj he
        refine part2 ?_
        rintro (⟨t, ht⟩ | ⟨t, ht⟩)
        · rw [hd] at ht; cases ht; exact h1 _ rfl
        · rw [hd] at ht; cases ht; exact h5 _ rfl
    cases u with
    | slice t => exact direct (same rfl (Or.inl ⟨t, rfl⟩))
    | array l t => exact direct (same rfl (Or.inr (Or.inl ⟨l, t, rfl⟩)))
    | uuid => exact direct (same rfl (by simp))
    | time => exact direct (same rfl (by simp))
    | map t => exact direct (same rfl (by simp))
    | _ => exact other (by simp) (by simp) (by simp) (by simp) (by simp)
  | @struct e n strict fields gs he hd hl h ih =>
    have hden : Γ.denoted e = .structT := by cases he <;> simp [Env.denoted, Env.denotedIdent, hd, Decl.spec]
    have part2 : Term (fun k => (Γ.methods k n).reset (.struct gs)) (ResetLeaves Γ X e (.struct gs)) := by
      obtain ⟨k1, ir, hir⟩ := hP.generated n _ (hg.name he) hd
      refine reset_of_ir hd hir ?_
      simp only [genResetDecl] at hir
      obtain ⟨xs, hxs, hir⟩ := Out.bind_eq_ok.1 hir
      simp only [Out.pure_eq, Out.ok.injEq] at hir
      subst hir
      simp only [runResetDecl]
      refine (resets_term (X := X) hxs hl fun i fd g hf hg' x hx => (ih i fd g hf hg' (hP.field (hg.name he) hd (List.mem_of_getElem? hf))).1 _ _ x hx).bind
        fun ws hws => .pure ⟨?_, ?_, ?_⟩
      · refine .struct he hd hws.1 fun i fd w hf hw => ?_
        obtain ⟨g, hg'⟩ : ∃ g, gs[i]? = some g := by
          have := (List.getElem?_eq_some_iff.1 hf).1
          exact ⟨_, List.getElem?_eq_getElem (by omega)⟩
        exact (hws.2 i fd g w hf hg' hw).typed
      · exact .struct he hd hl hws.1 fun i fd g w hf hg' hw => (hws.2 i fd g w hf hg' hw).clears
      · intro hn
        have hn' := hn.of_struct he hd
        refine .struct he hd hws.1 fun i fd w hf hw => ?_
        obtain ⟨g, hg'⟩ : ∃ g, gs[i]? = some g := by
          have := (List.getElem?_eq_some_iff.1 hf).1
          exact ⟨_, List.getElem?_eq_getElem (by omega)⟩
        exact (hws.2 i fd g w hf hg' hw).asNew (hn' i fd g hf hg')
    refine ⟨fun k lvl x hx => ?_, fun m hm hc => by cases hm.inj he; exact part2⟩
    rcases genReset_other hx (by rw [hden]; simp) (by rw [hden]; simp) (by rw [hden]; simp) (by rw [hden]; simp) (by rw [hden]; simp) with ⟨_, hc⟩ | ⟨m, hm, rfl⟩
    · rw [hden] at hc; cases hc
    · cases hm.inj he; exact part2
  | @foreign e n v he hd h =>
    have hden : Γ.denoted e = e := by cases he <;> simp [Env.denoted, Env.denotedIdent, hd]
    have part2 : Term (fun k => (Γ.methods k n).reset v) (ResetLeaves Γ X e v) := by
      obtain ⟨z, hz, ht⟩ := hP.zeros n (hg.name he)
      obtain ⟨w, h1, h2⟩ := hP.foreign n v (hg.name he) hd h
      have hw : ZeroIs Γ n w := (zeroIs_none hd).2 h2
      have : w = z := zeroOf_unique (zeroOf_named.2 hw) (zeroOf_named.2 hz)
      subst this
      exact (Term.pure (ResetLeaves.zero ⟨(zeroOf_name he).2 hz, ht.name (.named n) he⟩)).succ fun k => by rw [methods_none hd, h1]
    refine ⟨fun k lvl x hx => ?_, fun m hm hc => by cases hm.inj he; exact part2⟩
    rcases genReset_other hx (by rw [hden]; cases he <;> simp) (by rw [hden]; cases he <;> simp) (by rw [hden]; cases he <;> simp) (by rw [hden]; cases he <;> simp) (by rw [hden]; cases he <;> simp) with ⟨_, hc⟩ | ⟨m, hm, rfl⟩
    · rw [hden] at hc
      cases he with
      | named n => cases hc with | name hd' => rw [hd] at hd'; cases hd'
      | sel n => cases hc
    · cases hm.inj he; exact part2

/-- a slice type declared by name -/
theorem reset_named_slice (hP : ResetPackage Γ X S) {n : Nat} {u : TExpr} (hn : S n) (hd : Γ.decl n = some (.alias (.slice u)))
    {v : GoVal} (hv : HasType Γ X (.named n) v) :
    Term (fun k => (Γ.methods k n).reset v) (fun w => HasType Γ X (.named n) w ∧ Clears Γ (.named n) v w) := by
  have hv' := hv.of_alias (.named n) hd
  obtain ⟨k1, ir, hir⟩ := hP.generated n _ hn hd
  refine (reset_of_ir hd hir ?_ : Term _ (fun w => HasType Γ X (.slice u) w ∧ Clears Γ (.slice u) v w)).imp
    fun w hw => ⟨.alias (.named n) hd hw.1, .alias (.named n) hd hw.2⟩
  have hnil : HasType Γ X (.slice u) .nil ∧ Clears Γ (.slice u) v .nil := ⟨.nilSlice u, .zero ⟨0, rfl⟩⟩
  simp only [genResetDecl] at hir
  split at hir
  · rename_i hb
    obtain rfl := isByte_iff.1 hb
    cases hir
    cases hv' with
    | nilSlice => exact .pure hnil
    | slice hb => exact absurd rfl hb
    | bytes b => exact .pure ⟨.bytes [], .bytes⟩
    | alias he | struct he | foreign he => cases he
  · rename_i hb
    rcases hv'.slice_cases (fun h => hb (isByte_iff.2 h)) with rfl | ⟨es, sp, rfl, hes, hsp⟩
    · split at hir
      · split at hir <;> first | (cases hir; exact .pure hnil) | cases hir
      · cases hir; exact .pure hnil
    · have hbu : u ≠ .prim .byte := fun h => hb (isByte_iff.2 h)
      have go : ∀ m, NameOf u m → Γ.denoted u = .structT → ir = .list (some m) →
          Term (fun k => runResetDecl (Γ.methods k) ir (.slice es sp)) (fun w => HasType Γ X (.slice u) w ∧ Clears Γ (.slice u) (.slice es sp) w) := by
        rintro m hm hden rfl
        simp only [runResetDecl]
        have hg : Good S u := (hP.alias hn hd).slice
        have hnc : ¬ Collection Γ m := by
          have : Γ.denoted u = Γ.denotedIdent m u := by cases hm <;> rfl
          rw [hden] at this
          rintro (⟨t, ht⟩ | ⟨t, ht⟩) <;> simp [Env.denotedIdent, ht, Decl.spec] at this
        refine (mapOut_term (P := ResetLeaves Γ X u) fun e he => (reset_term hP (hes e he) hg).2 m hm hnc).bind fun es' h => .pure ?_
        have := ResetLeaves.slice hbu hsp h.1 h.2
        exact ⟨this.typed, this.clears⟩
      split at hir
      · rename_i hden
        split at hir
        · cases hir; exact go _ (.named _) hden rfl
        · cases hir; exact go _ (.sel _) hden rfl
        · cases hir
      · cases hir
        refine .pure ⟨.slice hbu (by simp) ?_, .slice (by simp)⟩
        intro x hx
        rcases List.mem_append.1 hx with hx | hx
        · exact hes x hx
        · exact hsp x hx

/-- a map type declared by name: the values are cleared, the keys stay -/
theorem reset_named_map (hP : ResetPackage Γ X S) {n : Nat} {u : TExpr} (hn : S n) (hd : Γ.decl n = some (.alias (.map u)))
    {kvs : List (Str × GoVal)} (hv : HasType Γ X (.named n) (.map kvs)) :
    Term (fun k => (Γ.methods k n).reset (.map kvs)) (fun w => HasType Γ X (.named n) w ∧ ∃ kvs', w = .map kvs' ∧
      kvs'.map (·.1) = kvs.map (·.1) ∧
      ∀ (i : Nat) (a b : Str × GoVal), kvs[i]? = some a → kvs'[i]? = some b → Clears Γ u a.2 b.2) := by
  have hv' := hv.of_alias (.named n) hd
  obtain ⟨k1, ir, hir⟩ := hP.generated n _ hn hd
  refine reset_of_ir hd hir ?_
  simp only [genResetDecl] at hir
  obtain ⟨x, hx, hir⟩ := Out.bind_eq_ok.1 hir
  simp only [Out.pure_eq, Out.ok.injEq] at hir
  subst hir
  simp only [runResetDecl]
  rcases hv'.map_cases with h | ⟨kvs', h, hk, hh⟩
  · cases h
  · cases h
    refine (mapOutKV_term (P := ResetLeaves Γ X u) fun kv hkv => (reset_term hP (hh kv hkv) (hP.alias hn hd).map).1 _ _ x hx).bind fun ws hws => .pure ?_
    refine ⟨.alias (.named n) hd (.map (by rw [hws.1]; exact hk) ?_), ws, rfl, hws.1, fun i a b ha hb => (hws.2 i a b ha hb).clears⟩
    intro kv hkv
    obtain ⟨i, hi, rfl⟩ := List.mem_iff_getElem.1 hkv
    have hlen : ws.length = kvs.length := by simpa using congrArg List.length hws.1
    exact (hws.2 i _ _ (List.getElem?_eq_getElem (by omega)) (List.getElem?_eq_getElem hi)).typed

theorem Clears.zero_of {t : TExpr} {old new : GoVal} (h : Clears Γ t old new) (ho : NoStorage old ∨ NoCollections Γ t) : ZeroOf Γ t new := by
  induction h with
  | zero h => exact h
  | slice hl =>
    rcases ho with h | h
    · cases h with | other h1 => exact absurd rfl (h1 _ _)
    · cases h with | alias he | struct he | foreign he => cases he
  | bytes =>
    rcases ho with h | h
    · cases h with | other _ h1 => exact absurd rfl (h1 _)
    · cases h with | alias he | struct he | foreign he => cases he
  | map h' =>
    rcases ho with h | h
    · cases h with | other _ _ h1 => exact absurd rfl (h1 _)
    · cases h with | alias he | struct he | foreign he => cases he
  | @«alias» e t n old new he hd h ih =>
    refine (zeroOf_name he).2 ((zeroIs_alias hd).2 (ih (ho.imp id fun h => ?_)))
    cases h with
    | «alias» he' hd' h => cases he.inj he'; rw [hd] at hd'; cases hd'; exact h
    | struct he' hd' => cases he.inj he'; rw [hd] at hd'; cases hd'
    | foreign he' hd' => cases he.inj he'; rw [hd] at hd'; cases hd'
    | _ => cases he
  | @struct e n strict fields olds news he hd hlo hln h ih =>
    refine (zeroOf_name he).2 ((zeroIs_struct hd).2 ⟨news, rfl, hln, fun i fd y hf hy => ?_⟩)
    obtain ⟨g, hg'⟩ : ∃ g, olds[i]? = some g := by
      have := (List.getElem?_eq_some_iff.1 hf).1
      exact ⟨_, List.getElem?_eq_getElem (by omega)⟩
    refine ih i fd g y hf hg' hy (ho.imp (fun h => ?_) fun h => ?_)
    · cases h with
      | struct h => exact h g (List.mem_of_getElem? hg')
      | other _ _ _ h => exact absurd rfl (h _)
    · cases h with
      | «alias» he' hd' h => cases he.inj he'; rw [hd] at hd'; cases hd'
      | struct he' hd' h => cases he.inj he'; rw [hd] at hd'; cases hd'; exact h fd (List.mem_of_getElem? hf)
      | foreign he' hd' => cases he.inj he'; rw [hd] at hd'; cases hd'
      | _ => cases he

end VJ
