import Verif.Proof.Paths

/-!
# C81: the module a source file belongs to, whatever way its path is written
-/

namespace VJ

/-! ## the search -/

theorem shrink_nil : shrink [] = [[]] := rfl

theorem shrink_concat (ns : List Str) (n : Str) : shrink (ns ++ [n]) = (ns ++ [n]) :: shrink ns := by
  unfold shrink
  rw [List.length_append, List.length_singleton, List.range_succ_eq_map, List.map_cons, List.map_map]
  congr 1
  · rw [List.take_of_length_le (by simp)]
  · refine List.map_congr_left fun i hi => ?_
    simp only [Function.comp]
    have hi := List.mem_range.1 hi
    rw [show ns.length + 1 - i.succ = ns.length - i by omega, List.take_append_of_le_length (by omega)]

/-- the directories looked at -/
def trail (base : List Str) (u : Nat) (names : List Str) : List (List Str) := (shrink names).map (up u base ++ ·) ++ downs u base

theorem trail_name (base : List Str) (u : Nat) (ns : List Str) (n : Str) :
    trail base u (ns ++ [n]) = (up u base ++ (ns ++ [n])) :: trail base u ns := by
  simp [trail, shrink_concat]

theorem trail_up (base : List Str) (u : Nat) : trail base (u + 1) [] = up (u + 1) base :: trail base u [] := by
  simp [trail, shrink_nil, downs]

theorem trail_end (base : List Str) : trail base 0 [] = [base] := by simp [trail, shrink_nil, downs, up]

theorem firstMod_cons {m : Machine} {x d : List Str} {ds : List (List Str)} :
    FirstMod m (x :: ds) d ↔ (x = d ∧ m.mod d = .found) ∨ (m.mod x = .missing ∧ FirstMod m ds d) := by
  constructor
  · rintro ⟨pre, post, h1, h2, h3⟩
    cases pre with
    | nil => simp only [List.nil_append, List.cons.injEq] at h1; exact .inl ⟨h1.1, h2⟩
    | cons y pre =>
      simp only [List.cons_append, List.cons.injEq] at h1
      obtain ⟨rfl, h1⟩ := h1
      exact .inr ⟨h3 x (by simp), pre, post, h1, h2, fun z hz => h3 z (by simp [hz])⟩
  · rintro (⟨rfl, h⟩ | ⟨h, pre, post, h1, h2, h3⟩)
    · exact ⟨[], ds, rfl, h, by simp⟩
    · refine ⟨x :: pre, post, by rw [h1]; rfl, h2, ?_⟩
      intro z hz
      simp only [List.mem_cons] at hz
      rcases hz with rfl | hz
      · exact h
      · exact h3 z hz

theorem firstMod_nil {m : Machine} {d : List Str} : ¬ FirstMod m [] d := by
  rintro ⟨pre, post, h, _⟩
  simp at h

theorem firstMod_single {m : Machine} {x d : List Str} : FirstMod m [x] d ↔ x = d ∧ m.mod d = .found := by
  rw [firstMod_cons]
  exact ⟨fun h => h.resolve_right fun h => firstMod_nil h.2, .inl⟩

/-- one step of the search -/
theorem findMod_step (m : Machine) {r : Bool} {u : Nat} {names : List Str} (hn : ∀ n ∈ names, GoodName n) (hu : r = true → u = 0) (k : Nat) :
    findMod m.open (k + 1) (cleanText r u names) =
      match m.mod (up u (if r then [] else m.cwd) ++ names) with
      | .found => .ok (some (cleanText r u names))
      | .missing => if u = 0 ∧ names = [] then .ok none else findMod m.open k (pathDir (cleanText r u names))
      | .failed => .ok none := by
  have ho : m.open (pathJoin (cleanText r u names) (str "go.mod")) = m.mod (up u (if r then [] else m.cwd) ++ names) := by
    unfold Machine.open Machine.mod
    rw [placeOf_join (cleanText_ne_nil hn hu), placeOf_cleanText hn hu]
  rw [findMod, ho]
  have he := cleanText_end hn hu
  cases m.mod (up u (if r then [] else m.cwd) ++ names) with
  | found => rfl
  | missing =>
    simp only
    by_cases h : u = 0 ∧ names = []
    · rw [if_pos (he.2 h), if_pos h]
    · rw [if_neg (fun h' => h (he.1 h')), if_neg h]
  | failed =>
    simp only
    split <;> rfl

/-- the search looks at the directories of the trail in order -/
theorem findMod_trail (m : Machine) {r : Bool} : ∀ (N : Nat) {u : Nat} {names : List Str}, u + names.length = N → (∀ n ∈ names, GoodName n) →
    (r = true → u = 0) →
    (∃ k t, findMod m.open k (cleanText r u names) = .ok (some t) ∧ FirstMod m (trail (if r then [] else m.cwd) u names) (placeOf m.cwd t)) ∨
    (∃ k, findMod m.open k (cleanText r u names) = .ok none ∧ ∀ d, ¬ FirstMod m (trail (if r then [] else m.cwd) u names) d) := by
  intro N
  induction N with
  | zero =>
    intro u names hN hn hu
    obtain ⟨rfl, h⟩ := Nat.add_eq_zero_iff.1 hN
    have := List.length_eq_zero_iff.1 h
    subst this
    have hs := findMod_step m hn hu 0
    rw [trail_end]
    simp only [up, List.append_nil, and_self, if_true] at hs
    cases hm : m.mod (if r then [] else m.cwd) with
    | found =>
      rw [hm] at hs
      refine .inl ⟨_, _, hs, firstMod_single.2 ?_⟩
      rw [placeOf_cleanText hn hu]
      simp only [up, List.append_nil, true_and, hm]
    | _ =>
      rw [hm] at hs
      refine .inr ⟨_, hs, fun d h => ?_⟩
      obtain ⟨rfl, h⟩ := firstMod_single.1 h
      rw [hm] at h; cases h
  | succ N ih =>
    intro u names hN hn hu
    -- the rest of the trail
    have rest : ∃ u' names', u' + names'.length = N ∧ (∀ n ∈ names', GoodName n) ∧ (r = true → u' = 0) ∧
        pathDir (cleanText r u names) = cleanText r u' names' ∧
        trail (if r then [] else m.cwd) u names = (up u (if r then [] else m.cwd) ++ names) :: trail (if r then [] else m.cwd) u' names' := by
      rcases List.eq_nil_or_concat names with rfl | ⟨ns, n, rfl⟩
      · cases u with
        | zero => simp at hN
        | succ u =>
          cases r with
          | true => exact absurd (hu rfl) (by simp)
          | false => exact ⟨u, [], by simpa using hN, hn, by simp, pathDir_up, by rw [trail_up]; simp⟩
      · rw [List.concat_eq_append] at hN hn ⊢
        exact ⟨u, ns, by simp at hN; omega, fun q hq => hn q (by simp [hq]), hu, pathDir_name hu hn, trail_name _ _ _ _⟩
    have hne : ¬ (u = 0 ∧ names = []) := by
      rintro ⟨rfl, rfl⟩
      simp at hN
    obtain ⟨u', names', h1, h2, h3, h4, h5⟩ := rest
    rw [h5]
    cases hm : m.mod (up u (if r then [] else m.cwd) ++ names) with
    | found =>
      have hs := findMod_step m hn hu 0
      rw [hm] at hs
      refine .inl ⟨_, _, hs, firstMod_cons.2 (.inl ⟨?_, ?_⟩)⟩
      · rw [placeOf_cleanText hn hu]
      · rw [placeOf_cleanText hn hu]; exact hm
    | failed =>
      have hs := findMod_step m hn hu 0
      rw [hm] at hs
      refine .inr ⟨_, hs, fun d h => ?_⟩
      rcases firstMod_cons.1 h with ⟨rfl, h⟩ | ⟨h, _⟩ <;> rw [hm] at h <;> cases h
    | missing =>
      rcases ih h1 h2 h3 with ⟨k, t, h6, h7⟩ | ⟨k, h6, h7⟩
      · have hs := findMod_step m hn hu k
        rw [hm] at hs
        simp only [hne, if_false, h4, h6] at hs
        exact .inl ⟨_, _, hs, firstMod_cons.2 (.inr ⟨hm, h7⟩)⟩
      · have hs := findMod_step m hn hu k
        rw [hm] at hs
        simp only [hne, if_false, h4, h6] at hs
        refine .inr ⟨_, hs, fun d h => ?_⟩
        rcases firstMod_cons.1 h with ⟨rfl, h⟩ | ⟨_, h⟩
        · rw [hm] at h; cases h
        · exact h7 d h

theorem findMod_mono (o : Str → OpenMod) : ∀ {k : Nat} {dir : Str} {r : Option Str}, findMod o k dir = .ok r → findMod o (k + 1) dir = .ok r
  | 0, dir, r, h => by simp [findMod] at h
  | k + 1, dir, r, h => by
    rw [findMod] at h ⊢
    generalize o (pathJoin dir (str "go.mod")) = x at h ⊢
    cases x with
    | found => exact h
    | failed => exact h
    | missing =>
      simp only at h ⊢
      split
      · rename_i hd; simpa [hd] using h
      · rename_i hd
        simp only [hd, if_false] at h
        exact findMod_mono o h

theorem findMod_le (o : Str → OpenMod) {k k' : Nat} (hk : k ≤ k') {dir : Str} {r : Option Str} (h : findMod o k dir = .ok r) :
    findMod o k' dir = .ok r := by
  induction hk with
  | refl => exact h
  | step _ ih => exact findMod_mono o ih

theorem findMod_unique (o : Str → OpenMod) {k k' : Nat} {dir : Str} {r r' : Option Str} (h : findMod o k dir = .ok r)
    (h' : findMod o k' dir = .ok r') : r = r' := by
  have h1 := findMod_le o (Nat.le_max_left k k') h
  have h2 := findMod_le o (Nat.le_max_right k k') h'
  rw [h1] at h2
  exact Out.ok.inj h2

theorem findMod_ok (o : Str → OpenMod) : ∀ (k : Nat) (dir : Str), findMod o k dir = .loop ∨ ∃ r, findMod o k dir = .ok r
  | 0, _ => .inl rfl
  | k + 1, dir => by
    rw [findMod]
    cases o (pathJoin dir (str "go.mod")) with
    | found => exact .inr ⟨_, rfl⟩
    | failed => simp only; split <;> exact .inr ⟨_, rfl⟩
    | missing =>
      simp only
      split
      · exact .inr ⟨_, rfl⟩
      · exact findMod_ok o k _

theorem newModPath_ok {o : Str → OpenMod} {k : Nat} {file r : Str} : newModPath o k file = .ok r ↔ findMod o k (pathDir file) = .ok (some r) := by
  unfold newModPath
  rcases findMod_ok o k (pathDir file) with h | ⟨x, h⟩
  · rw [h]; simp [bind, Out.bind]
  · rw [h]
    cases x <;> simp [bind, Out.bind, pure]

theorem newModPath_panic {o : Str → OpenMod} {k : Nat} {file : Str} : newModPath o k file = .panic ↔ findMod o k (pathDir file) = .ok none := by
  unfold newModPath
  rcases findMod_ok o k (pathDir file) with h | ⟨x, h⟩
  · rw [h]; simp [bind, Out.bind]
  · rw [h]
    cases x <;> simp [bind, Out.bind, pure]

/-- the root is the first directory on the trail that has a go.mod -/
theorem takesRoot_trail (m : Machine) {file : Str} {r : Bool} {u : Nat} {names : List Str} (hf : pathDir file = cleanText r u names)
    (hn : ∀ n ∈ names, GoodName n) (hu : r = true → u = 0) (d : List Str) :
    TakesRoot m file d ↔ FirstMod m (trail (if r then [] else m.cwd) u names) d := by
  have uniq : ∀ {ds : List (List Str)} {d d' : List Str}, FirstMod m ds d → FirstMod m ds d' → d = d' := by
    intro ds
    induction ds with
    | nil => intro d d' h; exact absurd h firstMod_nil
    | cons x ds ih =>
      intro d d' h h'
      rcases firstMod_cons.1 h with ⟨rfl, h1⟩ | ⟨h1, h2⟩ <;> rcases firstMod_cons.1 h' with ⟨rfl, h3⟩ | ⟨h3, h4⟩
      · rfl
      · rw [h1] at h3; cases h3
      · rw [h1] at h3; cases h3
      · exact ih h2 h4
  unfold TakesRoot
  simp only [newModPath_ok, hf]
  rcases findMod_trail m (r := r) _ rfl hn hu with ⟨k, t, h1, h2⟩ | ⟨k, h1, h2⟩
  · constructor
    · rintro ⟨k', t', h3, rfl⟩
      have := findMod_unique _ h1 h3
      cases this
      exact h2
    · intro h
      exact ⟨k, t, h1, uniq h2 h⟩
  · constructor
    · rintro ⟨k', t', h3, _⟩
      have := findMod_unique _ h1 h3
      cases this
    · intro h; exact absurd h (h2 d)

/-! ## the theorems -/

/-- **The search ends.**  Whatever the file is called and whatever there is on the disk, the generator
finds a root or panics, and not both. -/
theorem C81_ends (m : Machine) (file : Str) : ((∃ d, TakesRoot m file d) ∨ RootPanics m file) ∧ ¬ ((∃ d, TakesRoot m file d) ∧ RootPanics m file) := by
  obtain ⟨u, names, h1, h2, h3, _, _⟩ := pathDir_spec m.cwd file
  constructor
  · rcases findMod_trail m (r := isAbs file) _ rfl h3 h2 with ⟨k, t, h, _⟩ | ⟨k, h, _⟩
    · exact .inl ⟨_, k, t, newModPath_ok.2 (h1 ▸ h), rfl⟩
    · exact .inr ⟨k, newModPath_panic.2 (h1 ▸ h)⟩
  · rintro ⟨⟨d, k, t, h, _⟩, k', h'⟩
    cases findMod_unique _ (newModPath_ok.1 h) (newModPath_panic.1 h')

/-- the directories between one and another above it, from below -/
theorem firstMod_prefixes {m : Machine} {top names d : List Str} :
    FirstMod m ((shrink names).map (top ++ ·)) d ↔
      top <+: d ∧ NearestRoot m (top ++ names) d ∧ ∀ d', d <+: d' → d' <+: top ++ names → m.mod d' ≠ .failed := by
  generalize hN : names.length = N
  induction N generalizing names with
  | zero =>
    have := List.length_eq_zero_iff.1 hN
    subst this
    simp only [shrink_nil, List.map_cons, List.map_nil, List.append_nil, firstMod_single]
    constructor
    · rintro ⟨rfl, h⟩
      refine ⟨List.prefix_rfl, ⟨h, List.prefix_rfl, fun d' h' _ => h'⟩, ?_⟩
      intro d' h1 h2
      rw [← List.IsPrefix.eq_of_length_le h1 h2.length_le, h]
      simp
    · rintro ⟨h1, ⟨h2, h3, _⟩, _⟩
      exact ⟨List.IsPrefix.eq_of_length_le h1 h3.length_le, h2⟩
  | succ N ih =>
    rcases List.eq_nil_or_concat names with rfl | ⟨ns, n, rfl⟩
    · simp at hN
    · rw [List.concat_eq_append] at hN ⊢
      have hN' : ns.length = N := by simpa using hN
      have ih := ih hN'
      rw [shrink_concat, List.map_cons, firstMod_cons, ih]
      have hpre : ∀ {x : List Str}, x <+: top ++ (ns ++ [n]) ↔ x = top ++ (ns ++ [n]) ∨ x <+: top ++ ns := by
        intro x
        rw [← List.append_assoc]
        exact List.prefix_concat_iff
      constructor
      · rintro (⟨rfl, h⟩ | ⟨h, h1, ⟨h2, h3, h4⟩, h5⟩)
        · refine ⟨List.prefix_append _ _, ⟨h, List.prefix_rfl, fun d' h' _ => h'⟩, ?_⟩
          intro d' h1 h2
          rw [← List.IsPrefix.eq_of_length_le h1 h2.length_le, h]
          simp
        · refine ⟨h1, ⟨h2, hpre.2 (.inr h3), ?_⟩, ?_⟩
          · intro d' h6 h7
            rcases hpre.1 h6 with rfl | h6
            · rw [h] at h7; cases h7
            · exact h4 d' h6 h7
          · intro d' h6 h7
            rcases hpre.1 h7 with rfl | h7
            · rw [h]; simp
            · exact h5 d' h6 h7
      · rintro ⟨h1, ⟨h2, h3, h4⟩, h5⟩
        rcases hpre.1 h3 with rfl | h3'
        · exact .inl ⟨rfl, h2⟩
        · refine .inr ⟨?_, h1, ⟨h2, h3', fun d' h6 h7 => h4 d' (hpre.2 (.inr h6)) h7⟩, fun d' h6 h7 => h5 d' h6 (hpre.2 (.inr h7))⟩
          have hnf := h5 _ h3 List.prefix_rfl
          cases hm : m.mod (top ++ (ns ++ [n])) with
          | missing => rfl
          | failed => exact absurd hm hnf
          | found =>
            exfalso
            have := (h4 _ List.prefix_rfl hm).length_le
            have := h3'.length_le
            simp at *
            omega

theorem dirOf_eq (m : Machine) {file : Str} (h : EndsInName file) :
    m.dirOf file = follow (if isAbs file then [] else m.cwd) (splitSlash file).dropLast := by
  obtain ⟨name, h1, h2, h3, h4⟩ := h
  unfold Machine.dirOf placeOf
  have : splitSlash file = (splitSlash file).dropLast ++ [name] := by
    rw [List.getLast?_eq_some_iff] at h1
    obtain ⟨l, hl⟩ := h1
    rw [hl, List.dropLast_concat]
  rw [this, follow_append]
  simp [follow, h2, h3, h4]

/-- **The module of a file given by an absolute path.**  The root is the nearest directory at or above
the file's that has a go.mod file, provided nothing else went wrong on the way to it. -/
theorem C81_absolute (m : Machine) {file : Str} (ha : isAbs file = true) (hf : EndsInName file) (d : List Str) :
    TakesRoot m file d ↔ NearestRoot m (m.dirOf file) d ∧ ∀ d', d <+: d' → d' <+: m.dirOf file → m.mod d' ≠ .failed := by
  obtain ⟨u, names, h1, h2, h3, h4, _⟩ := pathDir_spec m.cwd file
  rw [← dirOf_eq m hf] at h4
  rw [takesRoot_trail m h1 h3 h2, h4]
  obtain rfl := h2 ha
  simp only [ha, if_true, trail, downs, List.append_nil, up]
  rw [firstMod_prefixes]
  simp

/-- **The module of a file given by a relative path without `..`.**  The root is the nearest directory
at or above the file's that has a go.mod file, but only if it is the working directory or below it. -/
theorem C81_relative_partial (m : Machine) {file : Str} (ha : isAbs file = false) (hd : ∀ q ∈ splitSlash file, q ≠ str "..") (hf : EndsInName file)
    (d : List Str) :
    TakesRoot m file d ↔ m.cwd <+: d ∧ NearestRoot m (m.dirOf file) d ∧ ∀ d', d <+: d' → d' <+: m.dirOf file → m.mod d' ≠ .failed := by
  obtain ⟨u, names, h1, h2, h3, h4, h5⟩ := pathDir_spec m.cwd file
  rw [← dirOf_eq m hf] at h4
  rw [takesRoot_trail m h1 h3 h2, h4]
  obtain rfl := h5 hd
  simp only [ha, Bool.false_eq_true, if_false, trail, downs, List.append_nil, up]
  exact firstMod_prefixes

/-- **The module of a file given by a path that starts with `..`.**  The search looks at the file's directory
and those above it as far as the path has names for them, and then goes *down* to the working
directory: the first of these with a go.mod file is taken. -/
theorem C81_dotdot (m : Machine) {k : Nat} {names : List Str} {base : Str} (hn : ∀ n ∈ names, n ≠ [] ∧ n ≠ str "." ∧ n ≠ str ".." ∧ '/' ∉ n)
    (hb : '/' ∉ base) (hk : k + names.length ≠ 0) (d : List Str) :
    TakesRoot m (joinSlash (List.replicate k (str "..") ++ names ++ [base])) d ↔
      FirstMod m ((shrink names).map (up k m.cwd ++ ·) ++ downs k m.cwd) d := by
  have hsl : ∀ w ∈ List.replicate k (str "..") ++ names, '/' ∉ w := by
    intro w hw
    simp only [List.mem_append, List.mem_replicate] at hw
    rcases hw with ⟨_, rfl⟩ | hw
    · decide
    · exact (hn w hw).2.2.2
  have hs : splitSlash (joinSlash (List.replicate k (str "..") ++ names ++ [base])) = List.replicate k (str "..") ++ names ++ [base] := by
    refine splitSlash_join (by simp) ?_
    intro w hw
    rcases List.mem_append.1 hw with hw | hw
    · exact hsl w hw
    · rw [List.mem_singleton.1 hw]; exact hb
  have key : pathDir (joinSlash (List.replicate k (str "..") ++ names ++ [base])) = cleanText false k names := by
    have ha : isAbs (joinSlash (List.replicate k (str "..") ++ names ++ [base])) = false := by
      cases hh : isAbs (joinSlash (List.replicate k (str "..") ++ names ++ [base])) with
      | false => rfl
      | true =>
        exfalso
        obtain ⟨w, ws, h⟩ := (isAbs_iff _).1 hh
        rw [hs] at h
        cases k with
        | succ k =>
          simp only [List.replicate_succ, List.cons_append, List.cons.injEq] at h
          exact dotdot_ne.1 h.1
        | zero =>
          cases names with
          | nil => simp at hk
          | cons n ns =>
            simp only [List.replicate_zero, List.nil_append, List.cons_append, List.cons.injEq] at h
            exact (hn n (by simp)).1 h.1
    unfold pathDir pathClean
    rw [splitSlash_dirPart, isAbs_dirPart, ha, hs, List.dropLast_concat]
    have kup : ∀ v u : Nat, (List.replicate u (str "..")).foldl (cleanStep false) (List.replicate v (str "..")) = List.replicate (v + u) (str "..") := by
      intro v u
      induction u generalizing v with
      | zero => rfl
      | succ u ih => rw [List.replicate_succ, List.foldl_cons, cleanStep_up_up, ih]; congr 1; omega
    have kn : ∀ (ns : List Str), (∀ n ∈ ns, GoodName n) → ∀ out, ns.foldl (cleanStep false) out = ns.reverse ++ out := by
      intro ns
      induction ns with
      | nil => simp
      | cons n ns ih =>
        intro h out
        rw [List.foldl_cons, cleanStep_name (h n (by simp)), ih (fun q hq => h q (by simp [hq]))]
        simp
    have h0 := kup 0 k
    simp only [List.replicate_zero, Nat.zero_add] at h0
    simp only [List.foldl_append, List.foldl_cons, List.foldl_nil, cleanStep_skip (Or.inl rfl), h0, kn names hn]
    simp [cleanText]
  rw [takesRoot_trail m key hn (by simp)]
  rfl

/-! ## concrete cases -/
namespace PathSample

/-- "sub/./x/../x.go" names a file in sub -/
example : pathDir (str "sub/./x/../x.go") = str "sub" ∧ pathDir (str "../../a//x.go") = str "../../a" ∧ pathDir (str "x.go") = str "." ∧
    pathDir (str "/x.go") = str "/" ∧ pathDir (str "/../a/x.go") = str "/a" ∧ pathDir (str "..") = str "." ∧
    pathJoin (str ".") (str "go.mod") = str "go.mod" ∧ pathJoin (str "/") (str "go.mod") = str "/go.mod" := by decide +kernel

/-- go.mod files in these directories -/
def disk (cwd : List Str) (mods : List (List Str)) : Machine where
  cwd := cwd
  file := fun f => if mods.any (fun d => d ++ [str "go.mod"] == f) then .found else .missing

/-- the module is /r, the generator runs in /r/m -/
def above : Machine := disk [str "r", str "m"] [[str "r"]]

/-- **A module above the working directory is not found.**  In /r/m the generator panics for "x.go", although the module /r has the
file; given as "/r/m/x.go" the file is generated for. -/
theorem C81_above : RootPanics above (str "x.go") ∧ NearestRoot above (above.dirOf (str "x.go")) [str "r"] ∧
    TakesRoot above (str "/r/m/x.go") [str "r"] := by
  refine ⟨⟨3, by decide +kernel⟩, ⟨by decide +kernel, by decide +kernel, ?_⟩, ⟨3, str "/r", by decide +kernel, by decide +kernel⟩⟩
  intro d h1 h2
  have : above.dirOf (str "x.go") = [str "r", str "m"] := by decide +kernel
  rw [this] at h1
  obtain ⟨t, ht⟩ := h1
  match d, ht with
  | [], _ => exact absurd h2 (by decide +kernel)
  | [a], ht =>
    simp only [List.cons_append, List.nil_append, List.cons.injEq] at ht
    rw [ht.1]; exact List.prefix_rfl
  | [a, b], ht =>
    simp only [List.cons_append, List.nil_append, List.cons.injEq] at ht
    rw [ht.1, ht.2.1] at h2
    exact absurd h2 (by decide +kernel)
  | a :: b :: c :: l, ht => simp at ht

/-- modules /r and /r/m/a; the generator runs in /r/m/a -/
def beside : Machine := disk [str "r", str "m", str "a"] [[str "r"], [str "r", str "m", str "a"]]

/-- **The module of the working directory is taken for a file that is not in it.**  In /r/m/a the
file ../b/x.go is /r/m/b/x.go; the root taken is /r/m/a. -/
theorem C81_beside : TakesRoot beside (str "../b/x.go") [str "r", str "m", str "a"] ∧
    beside.dirOf (str "../b/x.go") = [str "r", str "m", str "b"] ∧ ¬ [str "r", str "m", str "a"] <+: [str "r", str "m", str "b"] :=
  ⟨⟨4, str ".", by decide +kernel, by decide +kernel⟩, by decide +kernel, by decide +kernel⟩

/-- hypotheses of `C81_absolute`, `C81_relative_partial` and `C81_dotdot` -/
example : (isAbs (str "/r/m/x.go") = true ∧ EndsInName (str "/r/m/x.go") ∧ TakesRoot above (str "/r/m/x.go") [str "r"]) ∧
    (isAbs (str "s/x.go") = false ∧ (∀ q ∈ splitSlash (str "s/x.go"), q ≠ str "..") ∧ EndsInName (str "s/x.go") ∧
      TakesRoot beside (str "s/x.go") [str "r", str "m", str "a"]) ∧
    str "../b/x.go" = joinSlash (List.replicate 1 (str "..") ++ [str "b"] ++ [str "x.go"]) :=
  ⟨⟨rfl, ⟨str "x.go", by decide +kernel, by decide, by decide, by decide⟩, C81_above.2.2⟩,
    ⟨rfl, by decide +kernel, ⟨str "x.go", by decide +kernel, by decide, by decide, by decide⟩,
      ⟨4, str ".", by decide +kernel, by decide +kernel⟩⟩, by decide +kernel⟩

end PathSample
end VJ
