import Verif.Spec.Ends
import Verif.Proof.Inline
import Verif.Props.Chosen

/-!
# C70: which files the generator copes with, and that it comes to an end
-/

namespace VJ

theorem handsOn_element {file s o t} (h : HandsOn file s o) (he : ElementType file o t) : HandsOn file s t :=
  let ⟨_, _, h1, h2, h3, h4⟩ := he
  .element h h1 h2 h3 h4

/-- The element type the generator goes on with. -/
theorem element_found {file : List TypeDecl} (hd : DistinctTypes file) {s len n e} (ht : s.typ = .array len (.ident n))
    (hb : denotesByte ⟨none, visit file⟩ (.ident n) = false)
    (hg : (⟨none, visit file⟩ : Visitor).getDecl n = some ⟨e, []⟩) : ElementType file s e := by
  obtain ⟨doc, h1, h2, h3⟩ := getDecl_inv hd hg
  simp only at h1 h2 h3
  subst h2
  refine ⟨len, doc, ht, h1, h3.symm, fun hb' => ?_⟩
  simp [denotesByte, hg, hb'] at hb

theorem element_get {file : List TypeDecl} (hd : DistinctTypes file) {s e} (h : ElementType file s e) :
    ∃ len, s.typ = .array len (.ident e.name) ∧
      (⟨none, visit file⟩ : Visitor).getDecl e.name = some ⟨e, []⟩ ∧
      denotesByte ⟨none, visit file⟩ (.ident e.name) = false := by
  obtain ⟨len, doc, h1, h2, h3, h4⟩ := h
  have hg := getDecl_declared (over := none) hd h2
  rw [show extractTags _ = [] from h3] at hg
  exact ⟨len, h1, hg, by simp [denotesByte, hg, h4]⟩

theorem ready_of_ok {pkgs} (hp : DistinctAll pkgs) {file : List TypeDecl} (hd : DistinctTypes file) {k s tags res res'}
    (h : processDecl pkgs k ⟨none, visit file⟩ ⟨s, tags⟩ res = .ok res') : Feasible pkgs file tags s := by
  induction k generalizing s res res' with
  | zero => cases h
  | succ k ih =>
    rw [processDecl] at h
    split at h
    · rename_i fs ht
      split at h
      · rename_i htr
        exact .transit ht htr
      · obtain ⟨fields, hc, _⟩ := Out.bind_eq_ok.1 h
        exact .struct ht (collect_sound hp hd hc)
    · rename_i ht
      exact .map ht
    · rename_i elt ht
      refine .list ht fun t hel => ?_
      obtain ⟨_, h1, h2, h3⟩ := element_get hd hel
      rw [ht] at h1
      cases h1
      rw [if_neg (by simp [h3])] at h
      obtain ⟨mid, hmid, _⟩ := Out.bind_eq_ok.1 h
      simp only [processElem, h2] at hmid
      exact ih hmid
    · rename_i ht
      exact .name ht
    · rename_i ht
      exact .foreign ht
    · cases h

theorem ok_of_ready {pkgs} (hp : DistinctAll pkgs) {file : List TypeDecl} (hd : DistinctTypes file) {s tags}
    (h : Feasible pkgs file tags s) :
    ∃ k, ∀ res, ∃ res', processDecl pkgs k ⟨none, visit file⟩ ⟨s, tags⟩ res = .ok res' := by
  induction h with
  | struct ht hf =>
    obtain ⟨k, hk⟩ := collect_complete hp hf hd
    refine ⟨k + 1, fun res => ?_⟩
    rw [processDecl, ht]
    simp only [hk, Out.ok_bind]
    split <;> exact ⟨_, rfl⟩
  | transit ht htr => exact ⟨1, fun res => by rw [processDecl, ht]; simp only [htr, if_true]; exact ⟨_, rfl⟩⟩
  | map ht => exact ⟨1, fun res => by rw [processDecl, ht]; exact ⟨_, rfl⟩⟩
  | name ht => exact ⟨1, fun res => by rw [processDecl, ht]; exact ⟨_, rfl⟩⟩
  | foreign ht => exact ⟨1, fun res => by rw [processDecl, ht]; exact ⟨_, rfl⟩⟩
  | @list s len elt ht _ ih =>
    by_cases hel : ∃ t, ElementType file s t
    · obtain ⟨t, hel⟩ := hel
      obtain ⟨k, hk⟩ := ih t hel
      refine ⟨k + 1, fun res => ?_⟩
      obtain ⟨_, h1, h2, h3⟩ := element_get hd hel
      rw [ht] at h1
      cases h1
      obtain ⟨mid, hmid⟩ := hk res
      rw [processDecl, ht]
      simp only [h3, Bool.false_eq_true, if_false, processElem, h2, hmid, Out.ok_bind]
      exact ⟨_, rfl⟩
    · refine ⟨1, fun res => ?_⟩
      rw [processDecl, ht]
      cases hb : denotesByte ⟨none, visit file⟩ elt with
      | true => simp only [hb, if_true]; exact ⟨_, rfl⟩
      | false =>
        have : processElem (processDecl pkgs 0 ⟨none, visit file⟩) ⟨none, visit file⟩ tags elt res = .ok res := by
          unfold processElem
          split
          · split
            · rename_i e hg
              exact absurd ⟨e, element_found hd ht hb hg⟩ hel
            · rfl
          · rfl
        simp only [hb, Bool.false_eq_true, if_false, this, Out.ok_bind]
        exact ⟨_, rfl⟩

theorem normalize_ok_iff {pkgs} (hp : DistinctAll pkgs) {file : List TypeDecl} (hd : DistinctTypes file) (ds : List TaggedDecl)
    (res : List Renderer) : (∃ k res', normalize pkgs k ⟨none, visit file⟩ ds res = .ok res') ↔
      ∀ d ∈ ds, d.tags ≠ [] → Feasible pkgs file d.tags d.spec := by
  induction ds generalizing res with
  | nil => simp [normalize]
  | cons d ds ih =>
    by_cases ht : d.tags = []
    · simp only [normalize, ht, if_true, ih, List.mem_cons, forall_eq_or_imp, ne_eq, not_true, false_implies, true_and]
    · constructor
      · rintro ⟨k, res', h⟩
        rw [normalize, if_neg ht] at h
        obtain ⟨mid, hmid, h⟩ := Out.bind_eq_ok.1 h
        have := (ih mid).1 ⟨k, res', h⟩
        intro d' hd' ht'
        rcases List.mem_cons.1 hd' with rfl | hd'
        · exact ready_of_ok hp hd hmid
        · exact this d' hd' ht'
      · intro h
        obtain ⟨k1, hk1⟩ := ok_of_ready hp hd (h d List.mem_cons_self ht)
        obtain ⟨mid, hmid⟩ := hk1 res
        obtain ⟨k2, res', hk2⟩ := (ih mid).2 fun d' hd' => h d' (List.mem_cons_of_mem _ hd')
        refine ⟨max k1 k2, res', ?_⟩
        rw [normalize, if_neg ht, processDecl_mono (Nat.le_max_left _ _) hmid, Out.ok_bind]
        exact normalize_mono (Nat.le_max_right _ _) hk2

theorem generate_ok_iff {pkgs file} :
    (∃ k out, generate pkgs k file = .ok out) ↔ ∃ k rs, getNormalized pkgs k file = .ok rs := by
  constructor
  · rintro ⟨k, out, h⟩
    obtain ⟨rs, hrs, _⟩ := generate_inv h
    exact ⟨k, rs, hrs⟩
  · rintro ⟨k, rs, h⟩
    exact ⟨k, _, by rw [generate, h, Out.ok_bind, Out.ok_bind]; rfl⟩

/-- **C70.** The generator accepts a file exactly when methods can be made for every type at
which a comment with tags stands; types without tags do not matter. -/
theorem C70_accepted {pkgs file} (hp : DistinctAll pkgs) (hd : DistinctTypes file) :
    (∃ k out, generate pkgs k file = .ok out) ↔
      ∀ p ∈ commentOrder file, p.2 ≠ [] → Feasible pkgs file p.2 p.1 := by
  rw [generate_ok_iff]
  refine (normalize_ok_iff hp hd (visit file) []).trans ?_
  rw [commentOrder_visit]
  simp [List.mem_map]

/-! ## Coming to an end -/

theorem endless_of_not_acc {α} {r : α → α → Prop} {x} (h : ¬ Acc r x) :
    ∃ c : Nat → α, c 0 = x ∧ ∀ i, r (c (i + 1)) (c i) := by
  have step : ∀ x : { x // ¬ Acc r x }, ∃ y : { x // ¬ Acc r x }, r y.1 x.1 := by
    rintro ⟨x, hx⟩
    apply Classical.byContradiction
    intro hn
    refine hx ⟨x, fun y hy => Classical.byContradiction fun hy' => hn ⟨⟨y, hy'⟩, hy⟩⟩
  let next := fun x => Classical.choose (step x)
  let c : Nat → { x // ¬ Acc r x } := fun n => Nat.rec ⟨x, h⟩ (fun _ y => next y) n
  exact ⟨fun n => (c n).1, rfl, fun i => Classical.choose_spec (step (c i))⟩

/-- Not `loop`, from some bound on. -/
def EndsFor {α} (f : Nat → Out α) : Prop := ∃ K, ∀ k, K ≤ k → f k ≠ .loop

theorem Out.bind_ne_loop {α β} {x : Out α} {f : α → Out β} (hx : x ≠ .loop) (hf : ∀ a, x = .ok a → f a ≠ .loop) :
    (x >>= f) ≠ .loop := by
  cases x with
  | ok a => exact hf a rfl
  | panic => intro h; cases h
  | loop => exact absurd rfl hx
  | unsupp => intro h; cases h

theorem collectEach_ends {f : Nat → SrcField → Out (List SrcField)} {src : List SrcField}
    (h : ∀ x ∈ src, EndsFor fun k => f k x) : EndsFor fun k => collectEach (f k) src := by
  induction src with
  | nil => exact ⟨0, fun k _ h => by cases h⟩
  | cons x xs ih =>
    obtain ⟨K1, h1⟩ := h x List.mem_cons_self
    obtain ⟨K2, h2⟩ := ih fun y hy => h y (List.mem_cons_of_mem _ hy)
    refine ⟨max K1 K2, fun k hk => ?_⟩
    simp only [collectEach]
    refine Out.bind_ne_loop (h1 k (by omega)) fun a _ => Out.bind_ne_loop (h2 k (by omega)) fun b _ h => by cases h

theorem inlineDecl_ends {pkgs over} {file : List TypeDecl} {n}
    (h : ∀ doc s inner, Declares file doc s → s.name = n → s.typ = .struct inner →
      EndsFor fun k => collectFields pkgs k ⟨over, visit file⟩ inner) :
    EndsFor fun k => inlineDecl (collectFields pkgs k) ⟨over, visit file⟩ n := by
  unfold inlineDecl
  cases hg : (⟨over, visit file⟩ : Visitor).getDecl n with
  | none => exact ⟨0, fun k _ h => by cases h⟩
  | some d =>
    obtain ⟨hm, hn⟩ := getDecl_spec hg
    obtain ⟨t, ht, hs, _⟩ := mem_visit.1 hm
    cases hty : d.spec.typ with
    | struct inner =>
      obtain ⟨K, hK⟩ := h t.doc d.spec inner ⟨t, ht, rfl, hs⟩ hn hty
      refine ⟨K, fun k hk => ?_⟩
      simp only [hty]
      exact Out.bind_ne_loop (hK k hk) fun a _ h => by cases h
    | _ => exact ⟨0, fun k _ h => by simp only [hty] at h; cases h⟩

theorem collectField_ends {pkgs over} {file : List TypeDecl} {src : List SrcField} {f : SrcField} (hf : f ∈ src)
    (h : ∀ y, InlineStep pkgs (over, file, src) y → EndsFor fun k => collectFields pkgs k ⟨y.1, visit y.2.1⟩ y.2.2) :
    EndsFor fun k => collectField pkgs (collectFields pkgs k) ⟨over, visit file⟩ f := by
  unfold collectField
  by_cases h1 : f.tag = none ∧ f.names ≠ []
  · exact ⟨0, fun k _ h => by simp only [if_pos h1] at h; cases h⟩
  · simp only [if_neg h1]
    by_cases h2 : (fieldTags (qualify over f).tag).appendix = str "inline"
    · simp only [if_pos h2]
      have hin : Inlined f := by rw [Inlined, ← h2, qualify_tag]
      have hseen : SeenFrom over f (qualify over f) := seenFrom_iff.2 rfl
      suffices hE : EndsFor fun k => exploreInlined pkgs (collectFields pkgs k) ⟨over, visit file⟩ (qualify over f) by
        obtain ⟨K, hK⟩ := hE
        refine ⟨K, fun k hk => Out.bind_ne_loop (hK k hk) fun a _ => ?_⟩
        obtain ⟨fields, b⟩ := a
        cases b <;> (intro h; cases h)
      unfold exploreInlined
      cases ht : (qualify over f).typ with
      | ident n =>
        exact inlineDecl_ends fun doc s inner h3 h4 h5 =>
          h (over, file, inner) ⟨f, hf, _, n, doc, s, hseen, hin, .here ht, h3, h4, h5⟩
      | sel p n =>
        cases hn : (qualify over f).names with
        | nil =>
          cases hp : pkgs p n with
          | none => exact ⟨0, fun k _ h => by simp only [hp] at h; cases h⟩
          | some file' =>
            simp only [hp]
            exact inlineDecl_ends fun doc s inner h3 h4 h5 =>
              h (some p, file', inner) ⟨f, hf, _, n, doc, s, hseen, hin, .there ht hn hp, h3, h4, h5⟩
        | cons a l =>
          cases l with
          | nil => exact ⟨0, fun k _ h => by cases h⟩
          | cons b l => exact ⟨0, fun k _ h => by cases h⟩
      | _ => exact ⟨0, fun k _ h => by cases h⟩
    · simp only [if_neg h2]
      exact ⟨0, fun k _ h => by cases h⟩

theorem collectFields_ends {pkgs} {x : FieldsAt} (h : Acc (fun y x => InlineStep pkgs x y) x) :
    EndsFor fun k => collectFields pkgs k ⟨x.1, visit x.2.1⟩ x.2.2 := by
  induction h with
  | intro x _ ih =>
    obtain ⟨over, file, src⟩ := x
    obtain ⟨K, hK⟩ := collectEach_ends (f := fun k f => collectField pkgs (collectFields pkgs k) ⟨over, visit file⟩ f)
      fun f hf => collectField_ends hf ih
    refine ⟨K + 1, fun k hk => ?_⟩
    obtain ⟨k, rfl⟩ : ∃ j, k = j + 1 := ⟨k - 1, by omega⟩
    simp only [collectFields]
    exact hK k (by omega)

theorem processDecl_ends {pkgs} {file : List TypeDecl} (hd : DistinctTypes file) {s tags}
    (ha : Acc (fun t s => ElementType file s t) s)
    (hi : ∀ t fields, HandsOn file s t → t.typ = .struct fields → Acc (fun y x => InlineStep pkgs x y) (none, file, fields)) :
    ∃ K, ∀ k res, K ≤ k → processDecl pkgs k ⟨none, visit file⟩ ⟨s, tags⟩ res ≠ .loop := by
  induction ha with
  | intro s _ ih =>
    suffices h : ∃ K, ∀ k res, K ≤ k → processDecl pkgs (k + 1) ⟨none, visit file⟩ ⟨s, tags⟩ res ≠ .loop by
      obtain ⟨K, hK⟩ := h
      refine ⟨K + 1, fun k res hk => ?_⟩
      obtain ⟨k, rfl⟩ : ∃ j, k = j + 1 := ⟨k - 1, by omega⟩
      exact hK k res (by omega)
    simp only [processDecl]
    cases ht : s.typ with
    | struct fields =>
      obtain ⟨K, hK⟩ := collectFields_ends (hi s fields .self ht)
      refine ⟨K, fun k res hk => ?_⟩
      simp only
      split
      · intro h; cases h
      · exact Out.bind_ne_loop (hK k hk) fun a _ h => by cases h
    | array len elt =>
      simp only
      by_cases hel : ∃ t, ElementType file s t
      · obtain ⟨t, hel⟩ := hel
        obtain ⟨_, h1, h2, h3⟩ := element_get hd hel
        rw [ht] at h1
        cases h1
        have hone : HandsOn file s t := handsOn_element .self hel
        obtain ⟨K, hK⟩ := ih t hel fun t' fields ht' => hi t' fields (by
          clear ih hi
          induction ht' with
          | self => exact hone
          | element _ h4 h5 h6 h7 ih => exact .element ih h4 h5 h6 h7)
        refine ⟨K, fun k res hk => ?_⟩
        simp only [h3, Bool.false_eq_true, if_false, processElem, h2]
        exact Out.bind_ne_loop (hK k res hk) fun a _ h => by cases h
      · refine ⟨0, fun k res _ => ?_⟩
        cases hb : denotesByte ⟨none, visit file⟩ elt with
        | true => intro h; cases h
        | false =>
          have : processElem (processDecl pkgs k ⟨none, visit file⟩) ⟨none, visit file⟩ tags elt res = .ok res := by
            unfold processElem
            split
            · split
              · rename_i e hg
                exact absurd ⟨e, element_found hd ht hb hg⟩ hel
              · rfl
            · rfl
          simp only [Bool.false_eq_true, if_false, this, Out.ok_bind]
          intro h; cases h
    | _ => exact ⟨0, fun k _ _ h => by cases h⟩

theorem normalize_ends {pkgs} {v : Visitor} {ds : List TaggedDecl}
    (h : ∀ d ∈ ds, d.tags ≠ [] → ∃ K, ∀ k res, K ≤ k → processDecl pkgs k v d res ≠ .loop) :
    ∃ K, ∀ k res, K ≤ k → normalize pkgs k v ds res ≠ .loop := by
  induction ds with
  | nil => exact ⟨0, fun k res _ h => by cases h⟩
  | cons d ds ih =>
    obtain ⟨K2, h2⟩ := ih fun d' hd' => h d' (List.mem_cons_of_mem _ hd')
    by_cases ht : d.tags = []
    · exact ⟨K2, fun k res hk => by rw [normalize, if_pos ht]; exact h2 k res hk⟩
    · obtain ⟨K1, h1⟩ := h d List.mem_cons_self ht
      refine ⟨max K1 K2, fun k res hk => ?_⟩
      rw [normalize, if_neg ht]
      exact Out.bind_ne_loop (h1 k res (by omega)) fun a _ => h2 k a (by omega)

/-- **C70.** The generator comes to an end, with code or with a panic, unless there are slices of
slices or inlined structs without end, starting from a type at which a comment with tags
stands. -/
theorem C70_ends {pkgs file} (hd : DistinctTypes file) (h : ∀ k, generate pkgs k file = .loop) :
    ∃ p ∈ commentOrder file, p.2 ≠ [] ∧ (EndlessElements file p.1 ∨
      ∃ t fields, HandsOn file p.1 t ∧ t.typ = .struct fields ∧ EndlessInlining pkgs (none, file, fields)) := by
  apply Classical.byContradiction
  intro hno
  have hE : ∃ K, ∀ k res, K ≤ k → normalize pkgs k ⟨none, visit file⟩ (visit file) res ≠ .loop := by
    refine normalize_ends fun d hdv ht => ?_
    have hp : (d.spec, d.tags) ∈ commentOrder file := by
      rw [commentOrder_visit]
      exact List.mem_map.2 ⟨d, hdv, rfl⟩
    refine processDecl_ends hd ?_ ?_
    · apply Classical.byContradiction
      intro ha
      exact hno ⟨_, hp, ht, .inl (endless_of_not_acc ha)⟩
    · intro t fields h1 h2
      apply Classical.byContradiction
      intro ha
      exact hno ⟨_, hp, ht, .inr ⟨t, fields, h1, h2, endless_of_not_acc ha⟩⟩
  obtain ⟨K, hK⟩ := hE
  have hk := h K
  rw [generate] at hk
  have h1 : getNormalized pkgs K file ≠ .loop := hK K [] (Nat.le_refl _)
  exact Out.bind_ne_loop h1 (fun rs h2 => Out.bind_ne_loop h1 fun rs' _ h => by cases h) hk

theorem collectEach_mem {one : SrcField → Out (List SrcField)} {src out} (h : collectEach one src = .ok out) {f}
    (hf : f ∈ src) : ∃ a, one f = .ok a := by
  induction src generalizing out with
  | nil => cases hf
  | cons x xs ih =>
    rw [collectEach] at h
    obtain ⟨a, ha, h⟩ := Out.bind_eq_ok.1 h
    obtain ⟨b, hb, _⟩ := Out.bind_eq_ok.1 h
    rcases List.mem_cons.1 hf with rfl | hf
    · exact ⟨a, ha⟩
    · exact ih hb hf

/-- Fields are flattened only when those of the structs they inline are. -/
theorem collect_step {pkgs} (hp : DistinctAll pkgs) {k} {x y : FieldsAt} {out} (hd : DistinctTypes x.2.1)
    (h : collectFields pkgs (k + 1) ⟨x.1, visit x.2.1⟩ x.2.2 = .ok out) (hs : InlineStep pkgs x y) :
    DistinctTypes y.2.1 ∧ ∃ out', collectFields pkgs k ⟨y.1, visit y.2.1⟩ y.2.2 = .ok out' := by
  obtain ⟨over, file, src⟩ := x
  obtain ⟨over', file', inner⟩ := y
  obtain ⟨f, hf, f', n, doc, s, h1, h2, h3, h4, h5, h6⟩ := hs
  simp only at hd h hf h1 h3 h4 h6 ⊢
  rw [collectFields] at h
  obtain ⟨a, ha⟩ := collectEach_mem h hf
  obtain rfl := seenFrom_iff.1 h1
  unfold collectField at ha
  split at ha
  · cases ha
  · simp only at ha
    rw [if_pos (by rw [qualify_tag]; exact h2)] at ha
    obtain ⟨r, hr, _⟩ := Out.bind_eq_ok.1 ha
    have finish : ∀ (_ : DistinctTypes file') (_ : inlineDecl (collectFields pkgs k) ⟨over', visit file'⟩ n = .ok r),
        DistinctTypes file' ∧ ∃ out', collectFields pkgs k ⟨over', visit file'⟩ inner = .ok out' := by
      intro hd' hr
      obtain ⟨doc', s', inner', fields, g1, g2, g3, g4, _⟩ := (inlineDecl_iff hd').1 hr
      obtain ⟨rfl, _⟩ := declared_unique hd' g1 h4 (g2.trans h5.symm)
      rw [g3] at h6
      cases h6
      exact ⟨hd', _, g4⟩
    unfold exploreInlined at hr
    cases h3 with
    | here ht =>
      simp only [ht] at hr
      exact finish hd hr
    | there ht hn hf' =>
      simp only [ht, hn, hf'] at hr
      exact finish (hp _ _ _ hf') hr

/-- **C70.** Such files are never accepted. -/
theorem C70_endless_refused {pkgs file p} (hp : DistinctAll pkgs) (hd : DistinctTypes file)
    (hm : p ∈ commentOrder file) (ht : p.2 ≠ [])
    (h : EndlessElements file p.1 ∨ ∃ t fields, HandsOn file p.1 t ∧ t.typ = .struct fields ∧ str "transit" ∉ p.2 ∧
      EndlessInlining pkgs (none, file, fields)) (k out) : generate pkgs k file ≠ .ok out := by
  intro hg
  have hr := (C70_accepted hp hd).1 ⟨k, out, hg⟩ p hm ht
  rcases h with ⟨c, h0, hc⟩ | ⟨t, fields, h1, h2, h3, h4⟩
  · have : ∀ i s, Feasible pkgs file p.2 s → c i = s → False := by
      intro i s hr
      induction hr generalizing i with
      | list ht _ ih =>
        intro he
        subst he
        exact ih _ (hc i) (i + 1) rfl
      | struct ht | transit ht | map ht | name ht | foreign ht =>
        intro he
        subst he
        obtain ⟨_, _, h1, _⟩ := hc i
        rw [ht] at h1
        cases h1
    exact this 0 p.1 hr h0
  · have hr' : Feasible pkgs file p.2 t := by
      clear h2
      induction h1 with
      | self => exact hr
      | element _ h5 h6 h7 h8 ih =>
        cases ih with
        | list _ hl => exact hl _ ⟨_, _, h5, h6, h7, h8⟩
        | struct ht | transit ht | map ht | name ht | foreign ht => rw [ht] at h5; cases h5
    have hflat : ∃ flat, Flat pkgs none file fields flat := by
      cases hr' with
      | struct ht hf => rw [h2] at ht; cases ht; exact ⟨_, hf⟩
      | transit ht htr => exact absurd htr h3
      | list ht | map ht | name ht | foreign ht => rw [h2] at ht; cases ht
    obtain ⟨flat, hflat⟩ := hflat
    obtain ⟨c, h0, hc⟩ := h4
    obtain ⟨k', hk'⟩ := collect_complete hp hflat hd
    have : ∀ (k i : Nat) (out : List SrcField), DistinctTypes (c i).2.1 →
        collectFields pkgs k ⟨(c i).1, visit (c i).2.1⟩ (c i).2.2 ≠ .ok out := by
      intro k
      induction k with
      | zero => intro i out _ h; cases h
      | succ k ih =>
        intro i out hdi h
        obtain ⟨hd', out', h'⟩ := collect_step hp hdi h (hc i)
        exact ih (i + 1) out' hd' h'
    exact this k' 0 flat (by rw [h0]; exact hd) (by rw [h0]; exact hk')

namespace Examples

/-- The file of C39 is accepted, so methods can be made for `User`, which inlines `Base`, for
`Items` and, with the tags of `Items`, for `Item`. -/
theorem C70_srcFile : ∀ p ∈ commentOrder srcFile, p.2 ≠ [] → Feasible noPkgs srcFile p.2 p.1 :=
  (C70_accepted (fun _ _ _ h => by cases h) srcFile_distinct).1 ⟨5, _, C39_srcFile⟩

/-- A slice type that is its own element type, and has no tags, under a slice type with tags. -/
def selfSlice : List TypeDecl :=
  [⟨some [str "// json:strict"], [⟨str "A", .array none (.ident (str "B")), none⟩]⟩,
   ⟨none, [⟨str "B", .array none (.ident (str "B")), none⟩]⟩]

theorem selfSlice_B (s : TypeSpec) (h : s.typ = .array none (.ident (str "B"))) :
    ElementType selfSlice s ⟨str "B", .array none (.ident (str "B")), none⟩ :=
  ⟨none, none, h, ⟨_, List.mem_cons_of_mem _ List.mem_cons_self, rfl, List.mem_cons_self⟩, rfl, by simp⟩

theorem C70_selfSlice (k out) : generate noPkgs k selfSlice ≠ .ok out := by
  refine C70_endless_refused (p := (⟨str "A", .array none (.ident (str "B")), none⟩, [str "strict"]))
    (fun _ _ _ h => by cases h) (by rw [DistinctTypes]; decide +kernel) (by decide +kernel) (by simp) (.inl ?_) k out
  refine ⟨fun i => if i = 0 then ⟨str "A", .array none (.ident (str "B")), none⟩
    else ⟨str "B", .array none (.ident (str "B")), none⟩, rfl, fun i => ?_⟩
  simp only [Nat.add_one_ne_zero, if_false]
  exact selfSlice_B _ (by split <;> rfl)

/-- A struct that inlines itself. -/
def selfInline : List TypeDecl :=
  [⟨some [str "// json:strict"], [⟨str "Base", .struct [inlineBase], none⟩]⟩]

theorem C70_selfInline (k out) : generate noPkgs k selfInline ≠ .ok out := by
  refine C70_endless_refused (p := (⟨str "Base", .struct [inlineBase], none⟩, [str "strict"]))
    (fun _ _ _ h => by cases h) (by rw [DistinctTypes]; decide +kernel) (by decide +kernel) (by simp) (.inr ?_) k out
  refine ⟨_, _, .self, rfl, by decide +kernel, fun _ => (none, selfInline, [inlineBase]), rfl, fun _ => ?_⟩
  exact ⟨inlineBase, List.mem_cons_self, inlineBase, str "Base", _, ⟨str "Base", .struct [inlineBase], none⟩,
    .inside, by rw [Inlined]; decide +kernel, .here rfl, ⟨_, List.mem_cons_self, rfl, List.mem_cons_self⟩, rfl, rfl⟩

/-- A tagged type that is a function, say, is refused as well, although the generator comes to
an end. -/
theorem C70_other_refused : generate noPkgs 5 [⟨some [str "// json:strict"], [⟨str "F", .other, none⟩]⟩] = .panic := by
  decide +kernel

end Examples

end VJ
