import Verif.Proof.Link

/-!
# Writing inlined structs out: lemmas
-/

namespace VJ

/-! ## Files that differ only in how fields are written -/

/-- Same name and comment, and the same type, or two structs with the same fields once
flattened. -/
def SpecSim (pkgs : GetPackage) (file file' : List TypeDecl) (s s' : TypeSpec) : Prop :=
  s.name = s'.name ∧ s.doc = s'.doc ∧
  ((s.typ = s'.typ ∧ ∀ fs, s.typ ≠ .struct fs) ∨
    ∃ fs fs', s.typ = .struct fs ∧ s'.typ = .struct fs' ∧
      ∀ flat, Flat pkgs none file fs flat ↔ Flat pkgs none file' fs' flat)

def FileSim (pkgs : GetPackage) (file file' : List TypeDecl) : Prop :=
  List.Forall₂ (fun d d' => d.doc = d'.doc ∧ List.Forall₂ (SpecSim pkgs file file') d.specs d'.specs) file file'

theorem SpecSim.symm {pkgs file file' s s'} (h : SpecSim pkgs file file' s s') :
    SpecSim pkgs file' file s' s := by
  obtain ⟨h1, h2, h3⟩ := h
  refine ⟨h1.symm, h2.symm, ?_⟩
  rcases h3 with ⟨h3, h4⟩ | ⟨fs, fs', h3, h4, h5⟩
  · exact .inl ⟨h3.symm, h3 ▸ h4⟩
  · exact .inr ⟨fs', fs, h4, h3, fun flat => (h5 flat).symm⟩

theorem FileSim.symm {pkgs file file'} (h : FileSim pkgs file file') : FileSim pkgs file' file :=
  (List.Forall₂.imp (fun _ _ h => ⟨h.1.symm, (h.2.imp fun _ _ h => h.symm).flip⟩) h).flip

/-- Same tags, related types. -/
def TaggedSim (pkgs : GetPackage) (file file' : List TypeDecl) (d d' : TaggedDecl) : Prop :=
  d.tags = d'.tags ∧ SpecSim pkgs file file' d.spec d'.spec

theorem forall2_map {α β γ δ : Type} {R : α → β → Prop} {S : γ → δ → Prop} {f : α → γ} {g : β → δ}
    (h : ∀ a b, R a b → S (f a) (g b)) {l l'} (hl : List.Forall₂ R l l') :
    List.Forall₂ S (l.map f) (l'.map g) := by
  induction hl with
  | nil => exact .nil
  | cons h1 _ ih => exact .cons (h _ _ h1) ih

theorem forall2_append {α β : Type} {R : α → β → Prop} {a a' b b'} (h : List.Forall₂ R a a')
    (h' : List.Forall₂ R b b') : List.Forall₂ R (a ++ b) (a' ++ b') := by
  induction h with
  | nil => exact h'
  | cons h1 _ ih => exact .cons h1 ih

theorem forall2_flatMap {α β γ δ : Type} {R : α → β → Prop} {S : γ → δ → Prop} {f : α → List γ}
    {g : β → List δ} (h : ∀ a b, R a b → List.Forall₂ S (f a) (g b)) {l l'}
    (hl : List.Forall₂ R l l') : List.Forall₂ S (l.flatMap f) (l'.flatMap g) := by
  induction hl with
  | nil => exact .nil
  | cons h1 _ ih =>
    rw [List.flatMap_cons, List.flatMap_cons]
    exact forall2_append (h _ _ h1) ih

theorem forall2_eq_map {α β γ : Type} {R : α → β → Prop} {f : α → γ} {g : β → γ}
    (h : ∀ a b, R a b → f a = g b) {l l'} (hl : List.Forall₂ R l l') : l.map f = l'.map g := by
  induction hl with
  | nil => rfl
  | cons h1 _ ih => rw [List.map_cons, List.map_cons, h _ _ h1, ih]

theorem sim_specs {pkgs file file'} (h : FileSim pkgs file file') :
    List.Forall₂ (SpecSim pkgs file file') (fileSpecs file) (fileSpecs file') :=
  forall2_flatMap (fun _ _ h => h.2) h

theorem sim_visit {pkgs file file'} (h : FileSim pkgs file file') :
    List.Forall₂ (TaggedSim pkgs file file') (visit file) (visit file') := by
  refine forall2_flatMap (fun d d' hd => forall2_append ?_ ?_) h
  · exact forall2_map (fun s s' hs => ⟨by simp only [hd.1], hs⟩) hd.2
  · exact forall2_map (fun s s' hs => ⟨by simp only [hs.2.1], hs⟩) hd.2

theorem sim_distinct {pkgs file file'} (h : FileSim pkgs file file') (hd : DistinctTypes file) :
    DistinctTypes file' := by
  have h1 : ∀ f : List TypeDecl, DistinctTypes f ↔ ((fileSpecs f).map TypeSpec.name).Nodup := by
    intro f
    rw [fileSpecs, List.map_flatMap]
    rfl
  rw [h1] at hd ⊢
  rwa [← forall2_eq_map (fun _ _ h => h.1) (sim_specs h)]

theorem sim_find {pkgs file file'} {l l' : List TaggedDecl} {n : Str}
    (h : List.Forall₂ (TaggedSim pkgs file file') l l') :
    (l.find? (fun d => d.spec.name = n) = none ∧ l'.find? (fun d => d.spec.name = n) = none) ∨
    ∃ d d', l.find? (fun d => d.spec.name = n) = some d ∧
      l'.find? (fun d => d.spec.name = n) = some d' ∧ TaggedSim pkgs file file' d d' := by
  induction h with
  | nil => exact .inl ⟨rfl, rfl⟩
  | @cons d d' l l' h1 h2 ih =>
    by_cases hn : d.spec.name = n
    · right
      refine ⟨d, d', ?_, ?_, h1⟩
      · rw [List.find?_cons_of_pos (by simpa using hn)]
      · rw [List.find?_cons_of_pos (by simpa using h1.2.1.symm.trans hn)]
    · have hn' : d'.spec.name ≠ n := fun he => hn (h1.2.1.trans he)
      rw [List.find?_cons_of_neg (by simpa using hn), List.find?_cons_of_neg (by simpa using hn')]
      exact ih

section
variable {pkgs : GetPackage} {file file' : List TypeDecl} (hs : FileSim pkgs file file')
include hs

theorem sim_getDecl (n : Str) :
    ((⟨none, visit file⟩ : Visitor).getDecl n = none ∧ (⟨none, visit file'⟩ : Visitor).getDecl n = none) ∨
    ∃ d d', (⟨none, visit file⟩ : Visitor).getDecl n = some d ∧
      (⟨none, visit file'⟩ : Visitor).getDecl n = some d' ∧ TaggedSim pkgs file file' d d' :=
  sim_find (sim_visit hs)

theorem specSim_ident {s s' : TypeSpec} (h : SpecSim pkgs file file' s s') (n : Str) :
    s.typ = .ident n ↔ s'.typ = .ident n := by
  rcases h.2.2 with ⟨h1, _⟩ | ⟨fs, fs', h1, h2, _⟩
  · rw [h1]
  · rw [h1, h2]; simp

theorem sim_denotesByte (e : SrcExpr) :
    denotesByte ⟨none, visit file⟩ e = denotesByte ⟨none, visit file'⟩ e := by
  unfold denotesByte
  split
  · rename_i n
    rcases sim_getDecl hs n with ⟨h1, h2⟩ | ⟨d, d', h1, h2, h3⟩
    · rw [h1, h2]
    · rw [h1, h2]
      simp only [decide_eq_decide]
      exact specSim_ident hs h3.2 _
  · rfl

theorem sim_processDecl (hp : DistinctAll pkgs) (hd : DistinctTypes file) {k : Nat}
    {d d' : TaggedDecl} (hdd : TaggedSim pkgs file file' d d') {res res' : List Renderer}
    (h : processDecl pkgs k ⟨none, visit file⟩ d res = .ok res') :
    ∃ k', processDecl pkgs k' ⟨none, visit file'⟩ d' res = .ok res' := by
  have hd' := sim_distinct hs hd
  induction k generalizing d d' res res' with
  | zero => cases h
  | succ k ih =>
    obtain ⟨spec, tags⟩ := d
    obtain ⟨spec', tags'⟩ := d'
    obtain ⟨htags, hname, _, htyp⟩ := hdd
    simp only at htags hname htyp
    subst htags
    rw [processDecl] at h
    rcases htyp with ⟨ht, hns⟩ | ⟨fs, fs', h1, h2, h3⟩
    · split at h
      · rename_i fs hfs
        exact absurd hfs (hns fs)
      · rename_i v hv
        exact ⟨1, by rw [processDecl, ← ht, hv, ← hname]; exact h⟩
      · rename_i len elt he
        split at h
        · rename_i hb
          rw [sim_denotesByte hs] at hb
          refine ⟨1, ?_⟩
          rw [processDecl, ← ht, he]
          simp only [hb, if_true, ← hname]
          exact h
        · rename_i hb
          rw [sim_denotesByte hs] at hb
          obtain ⟨mid, hmid, h⟩ := Out.bind_eq_ok.1 h
          have : ∃ k', processElem (processDecl pkgs k' ⟨none, visit file'⟩) ⟨none, visit file'⟩ tags elt res
              = .ok mid := by
            unfold processElem at hmid
            split at hmid
            · rename_i n
              rcases sim_getDecl hs n with ⟨g1, g2⟩ | ⟨d, d', g1, g2, g3⟩
              · rw [g1] at hmid
                simp only at hmid
                exact ⟨0, by simp only [processElem, g2]; exact hmid⟩
              · rw [g1] at hmid
                obtain ⟨dspec, dtags⟩ := d
                obtain ⟨dspec', dtags'⟩ := d'
                obtain ⟨g4, g5⟩ := g3
                simp only at g4 g5
                subst g4
                cases dtags with
                | nil =>
                  obtain ⟨k', hk'⟩ := ih (d := ⟨dspec, tags⟩) (d' := ⟨dspec', tags⟩) ⟨rfl, g5⟩ hmid
                  exact ⟨k', by simp only [processElem, g2]; exact hk'⟩
                | cons t ts =>
                  exact ⟨0, by simp only [processElem, g2]; exact hmid⟩
            · rename_i hne
              refine ⟨0, ?_⟩
              unfold processElem
              split
              · rename_i n; exact absurd rfl (hne n)
              · exact hmid
          obtain ⟨k', hk'⟩ := this
          refine ⟨k' + 1, ?_⟩
          rw [processDecl, ← ht, he]
          simp only [hb, hk', Out.ok_bind, ← hname]
          exact h
      · rename_i n hn
        exact ⟨1, by rw [processDecl, ← ht, hn, ← hname]; exact h⟩
      · rename_i p n hn
        exact ⟨1, by rw [processDecl, ← ht, hn, ← hname]; exact h⟩
      · cases h
    · rw [h1] at h
      simp only at h
      split at h
      · rename_i htr
        refine ⟨1, ?_⟩
        rw [processDecl, h2]
        simp only [htr, if_true, ← hname]
        exact h
      · rename_i htr
        obtain ⟨fields, hc, h⟩ := Out.bind_eq_ok.1 h
        obtain ⟨k', hk'⟩ := collect_complete hp ((h3 fields).1 (collect_sound hp hd hc)) hd'
        refine ⟨k' + 1, ?_⟩
        rw [processDecl, h2]
        simp only [htr, if_false, hk', Out.ok_bind, ← hname]
        exact h

end

theorem processDecl_mono {pkgs k k'} (hk : k ≤ k') {v : Visitor} {d res out}
    (h : processDecl pkgs k v d res = .ok out) : processDecl pkgs k' v d res = .ok out := by
  induction k generalizing k' d res out with
  | zero => cases h
  | succ k ih =>
    obtain ⟨k', rfl⟩ : ∃ j, k' = j + 1 := ⟨k' - 1, by omega⟩
    obtain ⟨spec, tags⟩ := d
    rw [processDecl] at h ⊢
    split at h
    · split at h
      · rename_i htr
        simp only [htr, if_true]
        exact h
      · rename_i htr
        obtain ⟨fields, hc, h⟩ := Out.bind_eq_ok.1 h
        simp only [htr, if_false, collectFields_mono (by omega : k ≤ k') hc, Out.ok_bind]
        exact h
    · exact h
    · split at h
      · rename_i hb
        simp only [hb, if_true]
        exact h
      · rename_i elt _ hb
        obtain ⟨mid, hmid, h⟩ := Out.bind_eq_ok.1 h
        have : processElem (processDecl pkgs k' v) v tags elt res = .ok mid := by
          unfold processElem at hmid ⊢
          split at hmid
          · split at hmid
            · exact ih (Nat.le_of_succ_le_succ hk) hmid
            · exact hmid
          · exact hmid
        simp only [hb, this, Out.ok_bind]
        exact h
    · exact h
    · exact h
    · cases h

theorem normalize_mono {pkgs k k'} (hk : k ≤ k') {v : Visitor} {ds res out}
    (h : normalize pkgs k v ds res = .ok out) : normalize pkgs k' v ds res = .ok out := by
  induction ds generalizing res with
  | nil => exact h
  | cons d ds ih =>
    rw [normalize] at h ⊢
    split at h
    · rename_i ht
      rw [if_pos ht]
      exact ih h
    · rename_i ht
      rw [if_neg ht]
      obtain ⟨mid, hmid, h⟩ := Out.bind_eq_ok.1 h
      rw [processDecl_mono hk hmid, Out.ok_bind]
      exact ih h

theorem sim_normalized {pkgs file file'} (hs : FileSim pkgs file file') (hp : DistinctAll pkgs)
    (hd : DistinctTypes file) {k rs} (h : getNormalized pkgs k file = .ok rs) :
    ∃ k', getNormalized pkgs k' file' = .ok rs := by
  rw [getNormalized] at h
  have hv := sim_visit hs
  have : ∀ {l l' : List TaggedDecl} (_ : List.Forall₂ (TaggedSim pkgs file file') l l') {res out},
      normalize pkgs k ⟨none, visit file⟩ l res = .ok out →
      ∃ k', normalize pkgs k' ⟨none, visit file'⟩ l' res = .ok out := by
    intro l l' hl
    induction hl with
    | nil => intro res out h; exact ⟨0, h⟩
    | @cons d d' l l' h1 h2 ih =>
      intro res out h
      rw [normalize] at h
      split at h
      · rename_i ht
        obtain ⟨k', hk'⟩ := ih h
        exact ⟨k', by rw [normalize, if_pos (h1.1 ▸ ht)]; exact hk'⟩
      · rename_i ht
        obtain ⟨mid, hmid, h⟩ := Out.bind_eq_ok.1 h
        obtain ⟨k1, hk1⟩ := sim_processDecl hs hp hd h1 hmid
        obtain ⟨k2, hk2⟩ := ih h
        refine ⟨max k1 k2, ?_⟩
        rw [normalize, if_neg (h1.1 ▸ ht), processDecl_mono (Nat.le_max_left k1 k2) hk1, Out.ok_bind]
        exact normalize_mono (Nat.le_max_right k1 k2) hk2
  exact this hv h

theorem sim_plain {pkgs file file' s s'} (h : SpecSim pkgs file file' s s') :
    plainName s = plainName s' := by
  rcases h.2.2 with ⟨h1, _⟩ | ⟨fs, fs', h1, h2, _⟩
  · rw [plainName, plainName, h1]
  · rw [plainName, plainName, h1, h2]

theorem sim_any {pkgs file file'} {f g : TypeSpec → Bool} (h : ∀ s s', SpecSim pkgs file file' s s' → f s = g s')
    {l l'} (hl : List.Forall₂ (SpecSim pkgs file file') l l') : l.any f = l'.any g := by
  induction hl with
  | nil => rfl
  | cons h1 _ ih => rw [List.any_cons, List.any_cons, h _ _ h1, ih]

theorem sim_hidden {pkgs file file'} (hs : FileSim pkgs file file') (rs : List Renderer) :
    hiddenName rs file = hiddenName rs file' := by
  funext n
  refine sim_any (fun s s' h => ?_) (sim_specs hs)
  rw [h.1, sim_plain h]

theorem sim_table {pr : Project} {file file'} (hs : FileSim pr.pkgs file file') {rs} {l l'}
    (hl : List.Forall₂ (SpecSim pr.pkgs file file') l l') :
    declTable pr rs file l = declTable pr rs file' l' := by
  induction hl with
  | nil => rfl
  | @cons s s' l l' h1 _ ih =>
    rw [declTable, declTable, ih, h1.1, sim_plain h1, sim_hidden hs]
    have : ∀ r, declOf pr.seen (hiddenName rs file') r s.typ = declOf pr.seen (hiddenName rs file') r s'.typ := by
      intro r
      rcases h1.2.2 with ⟨h1, _⟩ | ⟨fs, fs', h1, h2, _⟩
      · rw [h1]
      · rw [h1, h2]
        unfold declOf
        cases r.kind <;> rfl
    simp only [this]

theorem sim_link {pr : Project} {file file'} (hs : FileSim pr.pkgs file file')
    (hp : DistinctAll pr.pkgs) (hd : DistinctTypes file) {k ext Γ} (h : link pr k file ext = .ok Γ) :
    ∃ k', link pr k' file' ext = .ok Γ := by
  obtain ⟨rs, h1, h⟩ := Out.bind_eq_ok.1 h
  obtain ⟨k', hk'⟩ := sim_normalized hs hp hd h1
  refine ⟨k', ?_⟩
  rw [link, hk', Out.ok_bind, ← sim_table hs (sim_specs hs)]
  exact h

theorem sim_generate {pkgs} {file file'} (hs : FileSim pkgs file file')
    (hp : DistinctAll pkgs) (hd : DistinctTypes file) {k out} (h : generate pkgs k file = .ok out) :
    ∃ k', generate pkgs k' file' = .ok out := by
  obtain ⟨rs, h1, rfl⟩ := generate_inv h
  obtain ⟨k', hk'⟩ := sim_normalized hs hp hd h1
  refine ⟨k', ?_⟩
  rw [generate, hk']
  rfl

/-! ## Writing out gives such files -/

theorem flat_tags {pkgs over file fs out} (h : Flat pkgs over file fs out) :
    ∀ f ∈ out, f.tag = none → f.names = [] := by
  have seen : ∀ {over} {f f' : SrcField}, SeenFrom over f f' → (f.tag = none → f.names = []) →
      f'.tag = none → f'.names = [] := by
    intro over f f' hs
    cases hs <;> exact id
  induction h with
  | nil => intro f hf; cases hf
  | keep h1 h2 _ _ ih =>
    intro f hf
    rcases List.mem_cons.1 hf with rfl | hf
    · exact seen h2 h1
    · exact ih f hf
  | inline _ _ _ _ _ _ _ _ _ _ ih1 ih2 =>
    intro f hf
    rcases List.mem_append.1 hf with hf | hf
    · exact ih1 f hf
    · exact ih2 f hf
  | sameName h1 h2 _ _ _ _ _ _ _ _ _ ih =>
    intro f hf
    rcases List.mem_cons.1 hf with rfl | hf
    · exact seen h2 h1
    · exact ih f hf
  | namedForeign h1 h2 _ _ _ _ ih =>
    intro f hf
    rcases List.mem_cons.1 hf with rfl | hf
    · exact seen h2 h1
    · exact ih f hf

theorem flat_self {pkgs file fs} (h1 : ∀ f ∈ fs, f.tag = none → f.names = [])
    (h2 : ∀ f ∈ fs, ¬ Inlined f) : Flat pkgs none file fs fs := by
  induction fs with
  | nil => exact .nil
  | cons f fs ih =>
    exact .keep (h1 f (by simp)) .inside (h2 f (by simp))
      (ih (fun g hg => h1 g (List.mem_cons_of_mem _ hg)) (fun g hg => h2 g (List.mem_cons_of_mem _ hg)))

theorem forall2_mem_left {α β : Type} {R : α → β → Prop} {l l'} (h : List.Forall₂ R l l') {a}
    (ha : a ∈ l) : ∃ b ∈ l', R a b := by
  induction h with
  | nil => cases ha
  | cons h1 _ ih =>
    rcases List.mem_cons.1 ha with rfl | ha
    · exact ⟨_, by simp, h1⟩
    · obtain ⟨b, hb, hr⟩ := ih ha
      exact ⟨b, List.mem_cons_of_mem _ hb, hr⟩

theorem forall2_mem_right {α β : Type} {R : α → β → Prop} {l l'} (h : List.Forall₂ R l l') {b}
    (hb : b ∈ l') : ∃ a ∈ l, R a b := by
  induction h with
  | nil => cases hb
  | cons h1 _ ih =>
    rcases List.mem_cons.1 hb with rfl | hb
    · exact ⟨_, by simp, h1⟩
    · obtain ⟨a, ha, hr⟩ := ih hb
      exact ⟨a, List.mem_cons_of_mem _ ha, hr⟩

theorem written_declares {pkgs file file'} (h : WrittenOut pkgs file file') {doc s}
    (hs : Declares file doc s) : ∃ s', Declares file' doc s' ∧ SpecWritten pkgs file s s' := by
  obtain ⟨d, hd, rfl, hm⟩ := hs
  obtain ⟨d', hd', h1, h2⟩ := forall2_mem_left h hd
  obtain ⟨s', hs', h3⟩ := forall2_mem_left h2 hm
  exact ⟨s', ⟨d', hd', h1.symm, hs'⟩, h3⟩

theorem written_declares' {pkgs file file'} (h : WrittenOut pkgs file file') {doc s'}
    (hs : Declares file' doc s') : ∃ s, Declares file doc s ∧ SpecWritten pkgs file s s' := by
  obtain ⟨d', hd', rfl, hm⟩ := hs
  obtain ⟨d, hd, h1, h2⟩ := forall2_mem_right h hd'
  obtain ⟨s, hs', h3⟩ := forall2_mem_right h2 hm
  exact ⟨s, ⟨d, hd, h1, hs'⟩, h3⟩

/-- The two declarations of an inlined struct, and the flattenings of their fields. -/
theorem written_cases {pkgs file s s'} (h : SpecWritten pkgs file s s') :
    s.name = s'.name ∧ (s = s' ∨ ∃ fields flat, s.typ = .struct fields ∧ s'.typ = .struct flat ∧
      Flat pkgs none file fields flat ∧ ∀ f ∈ flat, ¬ Inlined f) := by
  cases h with
  | same => exact ⟨rfl, .inl rfl⟩
  | written h1 h2 => exact ⟨rfl, .inr ⟨_, _, rfl, rfl, h1, h2⟩⟩

section
variable {pkgs : GetPackage} {F F' : List TypeDecl} (hw : WrittenOut pkgs F F') (hp : DistinctAll pkgs)
  (hd : DistinctTypes F)
include hw hp hd

theorem written_flat {over file fs out} (h : Flat pkgs over file fs out) :
    ∀ file', (file' = file ∨ (over = none ∧ file = F ∧ file' = F')) → Flat pkgs over file' fs out := by
  have inner : ∀ {over over' file f n doc s inner flat},
      Target pkgs over F f over' file n → over = none → Declares file doc s → s.name = n →
      s.typ = .struct inner → Flat pkgs over' file inner flat →
      (∀ file', (file' = file ∨ (over' = none ∧ file = F ∧ file' = F')) → Flat pkgs over' file' inner flat) →
      ∃ file2 s2 inner2, Target pkgs over F' f over' file2 n ∧ Declares file2 doc s2 ∧ s2.name = n ∧
        s2.typ = .struct inner2 ∧ Flat pkgs over' file2 inner2 flat := by
    intro over over' file f n doc s inner flat ht ho hs hn hst hf ih
    cases ht with
    | there h1 h2 h3 => exact ⟨_, s, inner, .there h1 h2 h3, hs, hn, hst, hf⟩
    | here h1 =>
      subst ho
      obtain ⟨s2, hs2, hsw⟩ := written_declares hw hs
      obtain ⟨hname, hsw⟩ := written_cases hsw
      rcases hsw with rfl | ⟨fields, flat2, h2, h3, h4, h5⟩
      · exact ⟨F', s, inner, .here h1, hs2, hn, hst, ih F' (.inr ⟨rfl, rfl, rfl⟩)⟩
      · rw [hst] at h2
        cases h2
        obtain rfl := C40_unique hp hd hf h4
        exact ⟨F', s2, flat, .here h1, hs2, hname.symm.trans hn, h3, flat_self (flat_tags h4) h5⟩
  induction h with
  | nil => intro file' _; exact .nil
  | keep h1 h2 h3 _ ih => intro file' hf; exact .keep h1 h2 h3 (ih file' hf)
  | @inline over file f f' over' filet n doc s inr flat fs out h1 h2 h3 h4 h5 h6 h7 h8 h9 h10 ih1 ih2 =>
    intro file' hf
    rcases hf with rfl | ⟨rfl, rfl, rfl⟩
    · exact .inline h1 h2 h3 h4 h5 h6 h7 h8 h9 h10
    · obtain ⟨file2, s2, inner2, g1, g2, g3, g4, g5⟩ := inner h4 rfl h5 h6 h7 h8 ih1
      exact .inline h1 h2 h3 g1 g2 g3 g4 g5 h9 (ih2 _ (.inr ⟨rfl, rfl, rfl⟩))
  | @sameName over file f f' over' filet n doc s inr flat fs out h1 h2 h3 h4 h5 h6 h7 h8 h9 h10 ih1 ih2 =>
    intro file' hf
    rcases hf with rfl | ⟨rfl, rfl, rfl⟩
    · exact .sameName h1 h2 h3 h4 h5 h6 h7 h8 h9 h10
    · obtain ⟨file2, s2, inner2, g1, g2, g3, g4, g5⟩ := inner h4 rfl h5 h6 h7 h8 ih1
      exact .sameName h1 h2 h3 g1 g2 g3 g4 g5 h9 (ih2 _ (.inr ⟨rfl, rfl, rfl⟩))
  | namedForeign h1 h2 h3 h4 h5 _ ih => intro file' hf; exact .namedForeign h1 h2 h3 h4 h5 (ih file' hf)

omit hp hd in
theorem written_flat' {over file fs out} (h : Flat pkgs over file fs out) :
    ∀ file', (file' = file ∨ (over = none ∧ file = F' ∧ file' = F)) → Flat pkgs over file' fs out := by
  have inner : ∀ {over over' file f n doc s inner flat},
      Target pkgs over F' f over' file n → over = none → Declares file doc s → s.name = n →
      s.typ = .struct inner → Flat pkgs over' file inner flat →
      (∀ file', (file' = file ∨ (over' = none ∧ file = F' ∧ file' = F)) → Flat pkgs over' file' inner flat) →
      ∃ file2 s2 inner2, Target pkgs over F f over' file2 n ∧ Declares file2 doc s2 ∧ s2.name = n ∧
        s2.typ = .struct inner2 ∧ Flat pkgs over' file2 inner2 flat := by
    intro over over' file f n doc s inner flat ht ho hs hn hst hf ih
    cases ht with
    | there h1 h2 h3 => exact ⟨_, s, inner, .there h1 h2 h3, hs, hn, hst, hf⟩
    | here h1 =>
      subst ho
      obtain ⟨s2, hs2, hsw⟩ := written_declares' hw hs
      obtain ⟨hname, hsw⟩ := written_cases hsw
      rcases hsw with rfl | ⟨fields, flat2, h2, h3, h4, h5⟩
      · exact ⟨F, s2, inner, .here h1, hs2, hn, hst, ih F (.inr ⟨rfl, rfl, rfl⟩)⟩
      · rw [hst] at h3
        cases h3
        obtain rfl := C40_nothing_to_inline hf h5
        exact ⟨F, s2, fields, .here h1, hs2, hname.trans hn, h2, h4⟩
  induction h with
  | nil => intro file' _; exact .nil
  | keep h1 h2 h3 _ ih => intro file' hf; exact .keep h1 h2 h3 (ih file' hf)
  | @inline over file f f' over' filet n doc s inr flat fs out h1 h2 h3 h4 h5 h6 h7 h8 h9 h10 ih1 ih2 =>
    intro file' hf
    rcases hf with rfl | ⟨rfl, rfl, rfl⟩
    · exact .inline h1 h2 h3 h4 h5 h6 h7 h8 h9 h10
    · obtain ⟨file2, s2, inner2, g1, g2, g3, g4, g5⟩ := inner h4 rfl h5 h6 h7 h8 ih1
      exact .inline h1 h2 h3 g1 g2 g3 g4 g5 h9 (ih2 _ (.inr ⟨rfl, rfl, rfl⟩))
  | @sameName over file f f' over' filet n doc s inr flat fs out h1 h2 h3 h4 h5 h6 h7 h8 h9 h10 ih1 ih2 =>
    intro file' hf
    rcases hf with rfl | ⟨rfl, rfl, rfl⟩
    · exact .sameName h1 h2 h3 h4 h5 h6 h7 h8 h9 h10
    · obtain ⟨file2, s2, inner2, g1, g2, g3, g4, g5⟩ := inner h4 rfl h5 h6 h7 h8 ih1
      exact .sameName h1 h2 h3 g1 g2 g3 g4 g5 h9 (ih2 _ (.inr ⟨rfl, rfl, rfl⟩))
  | namedForeign h1 h2 h3 h4 h5 _ ih => intro file' hf; exact .namedForeign h1 h2 h3 h4 h5 (ih file' hf)

theorem written_sim : FileSim pkgs F F' := by
  refine List.Forall₂.imp (fun d d' h => ⟨h.1, h.2.imp fun s s' hs => ?_⟩) hw
  cases hs with
  | same =>
    refine ⟨rfl, rfl, ?_⟩
    by_cases hst : ∃ fs, s.typ = .struct fs
    · obtain ⟨fs, hst⟩ := hst
      exact .inr ⟨fs, fs, hst, hst, fun flat =>
        ⟨fun h => written_flat hw hp hd h F' (.inr ⟨rfl, rfl, rfl⟩),
         fun h => written_flat' hw h F (.inr ⟨rfl, rfl, rfl⟩)⟩⟩
    · exact .inl ⟨rfl, fun fs h => hst ⟨fs, h⟩⟩
  | @written name doc fields flat h1 h2 =>
    refine ⟨rfl, rfl, .inr ⟨fields, flat, rfl, rfl, fun flat' => ⟨fun h => ?_, fun h => ?_⟩⟩⟩
    · obtain rfl := C40_unique hp hd h h1
      exact flat_self (flat_tags h1) h2
    · obtain rfl := C40_nothing_to_inline h h2
      exact h1

end

end VJ
