import Verif.Proof.Order
import Verif.Props.StructDecode
import Verif.Props.Collections
import Verif.Spec.Layout

/-!
# Decoding does not look at the order of members, at any depth
-/

namespace VJ
set_option linter.unusedSectionVars false
set_option linter.unusedSimpArgs false

/-! ### documents -/

theorem SameDoc.of_list {l : List JV} {d : JV} (h : SameDoc (.arr l) d) : ∃ l', d = .arr l' ∧ Each2 SameDoc l l' := by
  cases h with
  | refl => exact ⟨l, rfl, pw_refl .refl l⟩
  | arr hl h => exact ⟨_, rfl, hl, h⟩

/-- a document without structure is the same document -/
theorem SameDoc.leaf {v d : JV} (h : SameDoc v d) (ha : ∀ l, v ≠ .arr l) (ho : ∀ kvs, v ≠ .obj kvs) : d = v := by
  cases h with
  | refl => rfl
  | arr => exact absurd rfl (ha _)
  | obj => exact absurd rfl (ho _)

theorem NoRepeats.mem_arr {l : List JV} (h : NoRepeats (.arr l)) {v : JV} (hv : v ∈ l) : NoRepeats v := by
  cases h with | arr h => exact h v hv

theorem SameDoc.isNull {v d : JV} (h : SameDoc v d) : d.isNull = v.isNull := by cases h <;> rfl

theorem SameDoc.getStr {v d : JV} {s : Str} (h : SameDoc v d) (hs : v.getStr = .ok s) : d = v := by
  cases v <;> simp [JV.getStr] at hs
  exact h.leaf (by simp) (by simp)

theorem keys_lookup {a b : List (Str × JV)} (h : Each2 (Members SameDoc) a b) (key : Str) :
    (JV.lookup key a = none ∧ JV.lookup key b = none) ∨ ∃ x y, JV.lookup key a = some x ∧ JV.lookup key b = some y ∧ SameDoc x y := by
  induction a generalizing b with
  | nil =>
    have := h.1
    simp at this
    subst this
    exact Or.inl ⟨rfl, rfl⟩
  | cons x a ih =>
    obtain ⟨y, b, rfl, h1, h2⟩ := h.uncons
    obtain ⟨k, v⟩ := x
    obtain ⟨k', v'⟩ := y
    obtain ⟨h3, h4⟩ := h1
    simp only at h3 h4
    subst h3
    simp only [JV.lookup]
    by_cases hk : k = key
    · rw [if_pos hk, if_pos hk]; exact Or.inr ⟨v, v', rfl, rfl, h4⟩
    · rw [if_neg hk, if_neg hk]; exact ih h2

theorem lookup_mem' {key : Str} {v : JV} : ∀ {kvs : List (Str × JV)}, JV.lookup key kvs = some v → (key, v) ∈ kvs
  | [], h => by simp [JV.lookup] at h
  | (k, w) :: kvs, h => by
    simp only [JV.lookup] at h
    split at h
    · rename_i hk; cases h; subst hk; simp
    · exact List.mem_cons_of_mem _ (lookup_mem' h)

/-- the same member of the two documents -/
theorem SameDoc.get {v d : JV} (hn : NoRepeats v) (h : SameDoc v d) (key : Str) :
    (v.get key = none ∧ d.get key = none) ∨ ∃ x y, v.get key = some x ∧ d.get key = some y ∧ SameDoc x y ∧ NoRepeats x := by
  cases v with
  | obj kvs =>
    obtain ⟨mid, kvs', rfl, h1, h2⟩ := h.of_obj
    cases hn with
    | obj hk hv =>
    have hmk : (mid.map (·.1)).Nodup := by rw [show mid.map (·.1) = _ from pw_keys h1]; exact hk
    simp only [JV.get, ← lookup_perm h2 hmk key]
    rcases keys_lookup h1 key with h | ⟨x, y, h3, h4, h5⟩
    · exact Or.inl h
    · exact Or.inr ⟨x, y, h3, h4, h5, hv _ (lookup_mem' h3)⟩
  | arr l => obtain ⟨l', rfl, _⟩ := h.of_list; exact Or.inl ⟨rfl, rfl⟩
  | null | bool | num | str => rw [h.leaf (by simp) (by simp)]; exact Or.inl ⟨rfl, rfl⟩

theorem occurrences_keys (key : Str) : ∀ {a b : List (Str × JV)}, b.map (·.1) = a.map (·.1) → occurrences key b = occurrences key a := by
  intro a b h
  have : ∀ l : List (Str × JV), occurrences key l = ((l.map (·.1)).filter fun k => k = key).length := by
    intro l; simp [occurrences, List.filter_map, Function.comp_def]
  rw [this, this, h]

theorem SameDoc.acceptable {v d : JV} (h : SameDoc v d) {names : List Str} {strict : Bool} (ha : Acceptable names strict v) :
    Acceptable names strict d := by
  obtain ⟨kvs, rfl, h1, h2⟩ := ha
  obtain ⟨mid, kvs', rfl, h3, h4⟩ := h.of_obj
  refine ⟨kvs', rfl, fun key hk => ?_, fun hs kv hkv => ?_⟩
  · rw [← occurrences_perm h4 key, occurrences_keys key (pw_keys h3)]; exact h1 key hk
  · obtain ⟨x, hx, hxy⟩ := pw_mem h3 (h4.mem_iff.2 hkv)
    rw [← hxy.1]; exact h2 hs x hx

/-! ### values -/

theorem SameValue.list {a b : List GoVal} (h : Each2 SameValue a b) : SameValue (.arr a) (.arr b) := .arr h.1 h.2

theorem Each2.take {α β : Type} {R : α → β → Prop} {a : List α} {b : List β} (h : Each2 R a b) (n : Nat) : Each2 R (a.take n) (b.take n) := by
  refine ⟨by simp [h.1], fun i x y hx hy => ?_⟩
  rw [List.getElem?_take] at hx hy
  split at hx
  · rename_i hi; rw [if_pos hi] at hy; exact h.2 i x y hx hy
  · cases hx

theorem Each2.drop {α β : Type} {R : α → β → Prop} {a : List α} {b : List β} (h : Each2 R a b) (n : Nat) : Each2 R (a.drop n) (b.drop n) := by
  refine ⟨by simp [h.1], fun i x y hx hy => ?_⟩
  rw [List.getElem?_drop] at hx hy
  exact h.2 _ x y hx hy

theorem mkSlice_layout {n : Nat} {a b : List GoVal} (h : Each2 SameValue a b) : SameValue (mkSlice n a) (mkSlice n b) :=
  .slice (h.take n).1 (h.take n).2 (h.drop n).1 (h.drop n).2

theorem SameValue.of_leaf {v w : GoVal} (h : SameValue v w) (hp : ∀ x, v ≠ .ptr x) (hs : ∀ x y, v ≠ .slice x y) (ha : ∀ x, v ≠ .arr x)
    (ht : ∀ x, v ≠ .struct x) (hm : ∀ x, v ≠ .map x) : w = v := by
  cases h with
  | refl => rfl
  | ptr => exact absurd rfl (hp _)
  | slice => exact absurd rfl (hs _ _)
  | arr => exact absurd rfl (ha _)
  | struct => exact absurd rfl (ht _)
  | map => exact absurd rfl (hm _)

theorem nodup_unique {k : Str} {x y : GoVal} : ∀ {b : List (Str × GoVal)}, (b.map (·.1)).Nodup → (k, x) ∈ b → (k, y) ∈ b → x = y
  | [], _, hx, _ => by cases hx
  | c :: b, hn, hx, hy => by
    simp only [List.map_cons, List.nodup_cons, List.mem_map, not_exists, not_and] at hn
    rcases List.mem_cons.1 hx with e | hx <;> rcases List.mem_cons.1 hy with e' | hy
    · rw [← e] at e'; cases e'; rfl
    · exact absurd (by rw [← e]) (hn.1 _ hy)
    · exact absurd (by rw [← e']) (hn.1 _ hx)
    · exact nodup_unique hn.2 hx hy

section
variable [Ext]

/-- the same entries set into the same map, in another order -/
theorem setAll_layout {m : List (Str × GoVal)} {a mid b : List (Str × GoVal)} (hn : (a.map (·.1)).Nodup)
    (h : Each2 (fun x y => x.1 = y.1 ∧ SameValue x.2 y.2) a mid) (hp : mid.Perm b) : SameValue (.map (setAll m a)) (.map (setAll m b)) := by
  have hk : mid.map (·.1) = a.map (·.1) := pw_keys h
  have hbn : (b.map (·.1)).Nodup := (hp.map _).nodup_iff.1 (hk ▸ hn)
  have uniq : ∀ {k : Str} {x y : GoVal}, (k, x) ∈ b → (k, y) ∈ b → x = y := fun hx hy => nodup_unique hbn hx hy
  have key : ∀ k, (mapGet k (setAll m a) = mapGet k (setAll m b)) ∨ ∃ x y, mapGet k (setAll m a) = some x ∧ mapGet k (setAll m b) = some y ∧ SameValue x y := by
    intro k
    rcases setAll_get k a m with ⟨h1, h2⟩ | ⟨i, w, h1, h2, _⟩
    · rcases setAll_get k b m with ⟨h3, _⟩ | ⟨j, w', h3, _⟩
      · exact Or.inl (h1.trans h3.symm)
      · have hmem := hp.mem_iff.2 (List.mem_of_getElem? h3)
        obtain ⟨x, hx, hxy⟩ := pw_mem h hmem
        exact absurd hxy.1 (h2 x hx)
    · obtain ⟨y, hy⟩ : ∃ y, mid[i]? = some y := ⟨_, List.getElem?_eq_getElem (by rw [h.1]; exact (List.getElem?_eq_some_iff.1 h1).1)⟩
      obtain ⟨h4, h5⟩ := h.2 i _ y h1 hy
      obtain ⟨ky, vy⟩ := y
      simp only at h4 h5
      subst h4
      have hb := hp.mem_iff.1 (List.mem_of_getElem? hy)
      rcases setAll_get k b m with ⟨_, h3⟩ | ⟨j, w', h3, h6, _⟩
      · exact absurd rfl (h3 _ hb)
      · have := uniq hb (List.mem_of_getElem? h3)
        subst this
        exact Or.inr ⟨w, vy, h2, h6, h5⟩
  refine .map (fun k => ?_) fun k x y hx hy => ?_
  · rcases key k with h | ⟨x, y, h1, h2, _⟩
    · rw [h]
    · rw [h1, h2]; rfl
  · rcases key k with h | ⟨x', y', h1, h2, h3⟩
    · rw [hx, hy] at h; cases h; exact .refl _
    · rw [hx] at h1; rw [hy] at h2; cases h1; cases h2; exact h3

/-! ### running the code -/

/-- what is known about the methods called -/
structure OrderFree (M : Nat → Methods) : Prop where
  conv : ∀ n v v' w, SameValue v v' → (M n).conv v = .ok w → ∃ w', (M n).conv v' = .ok w' ∧ SameValue w w'
  fill : ∀ n v v' s w, NoRepeats v → SameDoc v v' → (M n).fill v s = .ok (none, w) → ∃ w', (M n).fill v' s = .ok (none, w') ∧ SameValue w w'

variable {M : Nat → Methods}

theorem convT_layout (hM : OrderFree M) (t : TExpr) {v v' w : GoVal} (hv : SameValue v v') (h : convT M t v = .ok w) :
    ∃ w', convT M t v' = .ok w' ∧ SameValue w w' := by
  cases t <;> simp only [convT, Out.ok.injEq] at h ⊢
  case prim p =>
    subst h
    refine ⟨_, rfl, ?_⟩
    cases hv with
    | refl => exact .refl _
    | ptr h => cases p <;> exact .ptr h
    | slice a b c d => cases p <;> exact .slice a b c d
    | arr a b => cases p <;> exact .arr a b
    | struct a b => cases p <;> exact .struct a b
    | map a b => cases p <;> exact .map a b
  case named n => exact hM.conv n v v' w hv h
  case sel n => exact hM.conv n v v' w hv h
  all_goals subst h; exact ⟨_, rfl, hv⟩

theorem fillT_layout (hM : OrderFree M) (t : TExpr) {v v' : JV} {s w : GoVal} (hn : NoRepeats v) (hv : SameDoc v v')
    (h : fillT M t v s = .ok (none, w)) : ∃ w', fillT M t v' s = .ok (none, w') ∧ SameValue w w' := by
  cases t <;> simp only [fillT, reduceCtorEq] at h ⊢
  case named n => exact hM.fill n v v' s w hn hv h
  case sel n => exact hM.fill n v v' s w hn hv h

theorem storeElem_layout (hM : OrderFree M) (st : ElemStore) {val val' c c' w : GoVal} (hv : SameValue val val') (hc : SameValue c c')
    (h : storeElem M st val c = .ok w) : ∃ w', storeElem M st val' c' = .ok w' ∧ SameValue w w' := by
  cases st with
  | ref t =>
    simp only [storeElem] at h
    obtain ⟨u, hu, h⟩ := Out.bind_eq_ok.1 h
    simp at h; subst h
    obtain ⟨u', h1, h2⟩ := convT_layout hM t hv hu
    exact ⟨.ptr u', by simp only [storeElem, h1, Out.ok_bind, Out.pure_eq], .ptr h2⟩
  | val t => exact convT_layout hM t hv h
  | filled => simp [storeElem] at h; subst h; exact ⟨c', rfl, hc⟩

/-- templates in which no error is lost between the members of an object -/
def Extr.calm : Extr → Prop
  | .slice _ _ _ x _ _ | .array _ _ _ x _ _ => (∀ a b c d, x ≠ .map a b c d) ∧ x.calm
  | .map _ _ _ x => x.calm
  | _ => True

/-- a template that succeeds on `v` succeeds on every document that says the same -/
def TemplateSame (M : Nat → Methods) (x : Extr) : Prop :=
  ∀ (i : Nat) (v v' : JV) (fld val fld1 : GoVal), NoRepeats v → SameDoc v v' → runExtr M x i v fld = .ok (.done (.ok val) fld1) →
    ∃ val' fld2, runExtr M x i v' fld = .ok (.done (.ok val') fld2) ∧ SameValue val val' ∧ SameValue fld1 fld2

theorem sliceLoop_layout {f : Nat → JV → GoVal → Out Cell} {d : Prop}
    (hf : ∀ i a a' c w, NoRepeats a → SameDoc a a' → f i a c = .ok (.store w) → ∃ w', f i a' c = .ok (.store w') ∧ SameValue w w')
    (hb : d → ∀ i a a' c e w, SameDoc a a' → f i a c = .ok (.brk e w) → f i a' c = .ok (.brk e w)) :
    ∀ (l l' : List JV) (i : Nat) (cells : List GoVal) (s : Stop) (n : Nat) (cells' : List GoVal), Each2 SameDoc l l' → (∀ a ∈ l, NoRepeats a) →
      sliceLoop f i l cells = .ok (s, n, cells') → (s = .fin ∨ (d ∧ ∃ e, s = .brk e)) →
      ∃ cells2, sliceLoop f i l' cells = .ok (s, n, cells2) ∧ Each2 SameValue cells' cells2
  | [], l', i, cells, s, n, cells', hl, _, h, hs => by
    have := hl.1
    simp at this
    subst this
    exact ⟨cells', h, pw_refl .refl _⟩
  | a :: as, l', i, [], s, n, cells', _, _, h, _ => by simp [sliceLoop] at h
  | a :: as, l', i, c :: cs, s, n, cells', hl, hn, h, hs => by
    obtain ⟨a', as', rfl, h1, h2⟩ := hl.uncons
    simp only [sliceLoop] at h ⊢
    obtain ⟨r, hr, h⟩ := Out.bind_eq_ok.1 h
    cases r with
    | store w =>
      obtain ⟨w', h3, h4⟩ := hf i a a' c w (hn a (by simp)) h1 hr
      simp only at h
      obtain ⟨⟨s1, n1, c1⟩, h5, h⟩ := Out.bind_eq_ok.1 h
      simp at h
      obtain ⟨rfl, rfl, rfl⟩ := h
      obtain ⟨c2, h6, h7⟩ := sliceLoop_layout hf hb as as' (i + 1) cs s1 n1 c1 h2 (fun a ha => hn a (by simp [ha])) h5 hs
      exact ⟨w' :: c2, by rw [h3]; simp only [Out.ok_bind, h6, Out.pure_eq], h7.cons h4⟩
    | ret e w =>
      simp at h
      obtain ⟨rfl, _⟩ := h
      rcases hs with hs | ⟨_, _, hs⟩ <;> cases hs
    | brk e w =>
      simp at h
      obtain ⟨rfl, rfl, rfl⟩ := h
      rcases hs with hs | ⟨hd, _⟩
      · cases hs
      · have := hb hd i a a' c e w h1 hr
        exact ⟨w :: cs, by rw [this]; simp only [Out.ok_bind, Out.pure_eq], pw_refl .refl _⟩

theorem elemRound_layout (hM : OrderFree M) {x : Extr} (hx : TemplateSame M x) (nullable brk : Bool) (st : ElemStore) (i : Nat) (a a' : JV)
    (c w : GoVal) (hn : NoRepeats a) (ha : SameDoc a a') (h : elemRound M nullable brk st (runExtr M x) i a c = .ok (.store w)) :
    ∃ w', elemRound M nullable brk st (runExtr M x) i a' c = .ok (.store w') ∧ SameValue w w' := by
  unfold elemRound at h ⊢
  rw [ha.isNull]
  split at h
  · rename_i hc; rw [if_pos hc]; simp at h; subst h; exact ⟨_, rfl, .refl _⟩
  · rename_i hc; rw [if_neg hc]
    obtain ⟨t, ht, h⟩ := Out.bind_eq_ok.1 h
    cases t with
    | ret e c' => simp at h
    | done q c' =>
      cases q with
      | error e => simp only at h; split at h <;> simp at h
      | ok val =>
        simp only at h
        obtain ⟨u, hu, h⟩ := Out.bind_eq_ok.1 h
        simp at h; subst h
        obtain ⟨val', c2, h1, h2, h3⟩ := hx i a a' c val c' hn ha ht
        obtain ⟨w', h4, h5⟩ := storeElem_layout hM st h2 h3 hu
        exact ⟨w', by rw [h1]; simp only [Out.ok_bind, h4, Out.pure_eq], h5⟩

/-- times and UUIDs are strings: an error that gets lost is the same error -/
theorem elemRound_brk_layout {x : Extr} (hd : x.declaresErr = true) (hm : ∀ a b c d, x ≠ .map a b c d) (nullable brk : Bool) (st : ElemStore)
    (i : Nat) (a a' : JV) (c : GoVal) (e : Err) (w : GoVal) (ha : SameDoc a a')
    (h : elemRound M nullable brk st (runExtr M x) i a c = .ok (.brk e w)) :
    elemRound M nullable brk st (runExtr M x) i a' c = .ok (.brk e w) := by
  have hs : ∃ s, a.getStr = .ok s := by
    unfold elemRound at h
    split at h
    · simp at h
    · obtain ⟨t, ht, h⟩ := Out.bind_eq_ok.1 h
      cases hs : a.getStr with
      | ok s => exact ⟨s, rfl⟩
      | error c' =>
        exfalso
        cases x <;> simp [Extr.declaresErr] at hd
        case time => simp only [runExtr, hs] at ht; cases ht; simp at h
        case uuid => simp only [runExtr, hs] at ht; cases ht; simp at h
        case map => exact hm _ _ _ _ rfl
  obtain ⟨s, hs⟩ := hs
  rw [ha.getStr hs]; exact h

/-- what one member becomes in a map -/
def MapEntry (M : Nat → Methods) (star : Bool) (t : TExpr) (x : JV → Out TV) (v : JV) (g : GoVal) : Prop :=
  ((star && v.isNull) = true ∧ g = .nil) ∨
  ((star && v.isNull) = false ∧ ∃ w c u, x v = .ok (.done (.ok w) c) ∧ convT M t w = .ok u ∧ g = if star then .ptr u else u)

theorem mapLoop_entries {star : Bool} {t : TExpr} {x : JV → Out TV} : ∀ (kvs : List (Str × JV)) (m m' : List (Str × GoVal)),
    mapLoop M star t x kvs m = .ok (none, m') ↔
      ∃ kgs, Each2 (fun (kv : Str × JV) (kg : Str × GoVal) => kv.1 = kg.1 ∧ MapEntry M star t x kv.2 kg.2) kvs kgs ∧ m' = setAll m kgs
  | [], m, m' => by
    constructor
    · intro h
      simp [mapLoop] at h
      exact ⟨[], .nil, h.symm⟩
    · rintro ⟨kgs, h, rfl⟩
      have := h.1
      simp at this
      subst this
      rfl
  | (key, v) :: kvs, m, m' => by
    simp only [mapLoop]
    constructor
    · intro h
      split at h
      · rename_i hc
        obtain ⟨kgs, h1, h2⟩ := (mapLoop_entries kvs _ m').1 h
        exact ⟨(key, .nil) :: kgs, h1.cons ⟨rfl, Or.inl ⟨hc, rfl⟩⟩, h2⟩
      · rename_i hc
        obtain ⟨r, hr, h⟩ := Out.bind_eq_ok.1 h
        cases r with
        | ret e c => simp at h
        | done q c =>
          cases q with
          | error e => simp at h
          | ok w =>
            simp only at h
            obtain ⟨u, hu, h⟩ := Out.bind_eq_ok.1 h
            obtain ⟨kgs, h1, h2⟩ := (mapLoop_entries kvs _ m').1 h
            exact ⟨(key, if star then .ptr u else u) :: kgs, h1.cons ⟨rfl, Or.inr ⟨by simpa using hc, w, c, u, hr, hu, rfl⟩⟩, h2⟩
    · rintro ⟨kgs, h, rfl⟩
      obtain ⟨kg, kgs, rfl, h1, h2⟩ := h.uncons
      obtain ⟨k, g⟩ := kg
      obtain ⟨h3, h4⟩ := h1
      simp only at h3 h4
      subst h3
      rcases h4 with ⟨hc, rfl⟩ | ⟨hc, w, c, u, h5, h6, rfl⟩
      · rw [if_pos hc]
        exact (mapLoop_entries kvs _ _).2 ⟨kgs, h2, rfl⟩
      · rw [if_neg (by simp [hc]), h5]
        simp only [Out.ok_bind, h6]
        exact (mapLoop_entries kvs _ _).2 ⟨kgs, h2, rfl⟩

theorem mapEntry_layout (hM : OrderFree M) {x : Extr} (hx : TemplateSame M x) {star : Bool} {t : TExpr} {v v' : JV} {g : GoVal} (hn : NoRepeats v)
    (hv : SameDoc v v') (h : MapEntry M star t (fun v => runExtr M x 0 v .nil) v g) :
    ∃ g', MapEntry M star t (fun v => runExtr M x 0 v .nil) v' g' ∧ SameValue g g' := by
  unfold MapEntry
  rw [hv.isNull]
  rcases h with ⟨hc, rfl⟩ | ⟨hc, w, c, u, h1, h2, rfl⟩
  · exact ⟨.nil, Or.inl ⟨hc, rfl⟩, .refl _⟩
  · obtain ⟨w', c', h3, h4, _⟩ := hx 0 v v' .nil w c hn hv h1
    obtain ⟨u', h5, h6⟩ := convT_layout hM t h4 h2
    refine ⟨_, Or.inr ⟨hc, w', c', u', h3, h5, rfl⟩, ?_⟩
    cases star
    · exact h6
    · exact .ptr h6

theorem mapLoop_layout (hM : OrderFree M) {x : Extr} (hx : TemplateSame M x) {star : Bool} {t : TExpr} {kvs kvs' : List (Str × JV)}
    {m m' : List (Str × GoVal)} (hn : NoRepeats (.obj kvs)) (hv : SameDoc (.obj kvs) (.obj kvs'))
    (h : mapLoop M star t (fun v => runExtr M x 0 v .nil) kvs m = .ok (none, m')) :
    ∃ m2, mapLoop M star t (fun v => runExtr M x 0 v .nil) kvs' m = .ok (none, m2) ∧ SameValue (.map m') (.map m2) := by
  obtain ⟨kgs, h1, rfl⟩ := (mapLoop_entries kvs m m').1 h
  obtain ⟨mid, kvs2, he, h2, h3⟩ := hv.of_obj
  cases he
  cases hn with
  | obj hk hr =>
  have hkg : kgs.map (·.1) = kvs.map (·.1) := pw_keys h1
  -- entries of the members of `mid`
  have hpick : ∃ kmid : List (Str × GoVal), Each2 (fun (kv : Str × JV) (kg : Str × GoVal) => kv.1 = kg.1 ∧
      MapEntry M star t (fun v => runExtr M x 0 v .nil) kv.2 kg.2) mid kmid ∧ Each2 (fun (x y : Str × GoVal) => x.1 = y.1 ∧ SameValue x.2 y.2) kgs kmid := by
    have hc : Each2 (fun (kv : Str × JV) (kg : Str × GoVal) => ∃ kv0 : Str × JV, kv0 ∈ kvs ∧ Members SameDoc kv0 kv ∧ kv0.1 = kg.1 ∧
        MapEntry M star t (fun v => runExtr M x 0 v .nil) kv0.2 kg.2) mid kgs := by
      refine ⟨by rw [h1.1, h2.1], fun i kv kg hkv hkg' => ?_⟩
      obtain ⟨kv0, hkv0⟩ : ∃ y, kvs[i]? = some y := ⟨_, List.getElem?_eq_getElem (by rw [← h2.1]; exact (List.getElem?_eq_some_iff.1 hkv).1)⟩
      have := h1.2 i kv0 kg hkv0 hkg'
      exact ⟨kv0, List.mem_of_getElem? hkv0, h2.2 i kv0 kv hkv0 hkv, this.1, this.2⟩
    refine hc.choose fun kv kg hmem => ?_
    obtain ⟨kv0, h6, h7, h8, h9⟩ := hc.mem hmem
    obtain ⟨g', h10, h11⟩ := mapEntry_layout hM hx (hr kv0 h6) h7.2 h9
    exact ⟨(kv.1, g'), ⟨rfl, h10⟩, by rw [← h8]; exact h7.1, h11⟩
  obtain ⟨kmid, h4, h5⟩ := hpick
  obtain ⟨kgs', h6, h7, _⟩ := h4.perm h3
  refine ⟨setAll m kgs', (mapLoop_entries _ _ _).2 ⟨kgs', h6, rfl⟩, setAll_layout (by rw [hkg]; exact hk) h5 h7⟩

theorem runExtr_layout (hM : OrderFree M) : ∀ x : Extr, x.calm → TemplateSame M x := by
  intro x
  induction x with
  | slice json elt nullable x brk st ih =>
    intro hx i v v' fld val fld1 hn hv h
    cases v with
    | arr l =>
      obtain ⟨l', rfl, hl⟩ := hv.of_list
      simp only [runExtr, JV.getArr] at h ⊢
      obtain ⟨z, hz, h⟩ := Out.bind_eq_ok.1 h
      obtain ⟨⟨fresh, cells⟩, hc, h⟩ := Out.bind_eq_ok.1 h
      obtain ⟨⟨stop, n, cells'⟩, hlp, h⟩ := Out.bind_eq_ok.1 h
      have hstop : stop = .fin ∨ (x.declaresErr = true ∧ ∃ e, stop = .brk e) := by
        cases stop with
        | fin => exact Or.inl rfl
        | ret e => simp at h
        | brk e =>
          simp only at h
          split at h
          · rename_i hd; exact Or.inr ⟨hd, e, rfl⟩
          · simp at h
      obtain ⟨cells2, h1, h2⟩ := sliceLoop_layout (d := x.declaresErr = true) (elemRound_layout hM (ih hx.2) nullable brk st)
        (fun hd => elemRound_brk_layout hd hx.1 nullable brk st) l l' 0 cells stop n cells' hl (fun a ha => hn.mem_arr ha) hlp hstop
      have hfld : SameValue (fieldAfter fresh fld cells') (fieldAfter fresh fld cells2) := by
        cases fresh <;> cases fld <;> simp only [fieldAfter] <;> first | exact .refl _ | exact mkSlice_layout h2
      rw [hz]
      simp only [Out.ok_bind, hl.1, hc, h1]
      cases stop with
      | fin => simp at h; obtain ⟨rfl, rfl⟩ := h; exact ⟨_, _, rfl, mkSlice_layout h2, hfld⟩
      | ret e => simp at h
      | brk e =>
        simp only at h ⊢
        split at h
        · rename_i hd
          rw [if_pos hd]
          simp at h; obtain ⟨rfl, rfl⟩ := h; exact ⟨_, _, rfl, mkSlice_layout h2, hfld⟩
        · simp at h
    | obj kvs => simp [runExtr, JV.getArr] at h
    | null | bool | num | str => rw [hv.leaf (by simp) (by simp)]; exact ⟨_, _, h, .refl _, .refl _⟩
  | array json len elt x brk st ih =>
    intro hx i v v' fld val fld1 hn hv h
    cases v with
    | arr l =>
      obtain ⟨l', rfl, hl⟩ := hv.of_list
      simp only [runExtr, JV.getArr] at h ⊢
      rw [hl.1]
      split at h
      · simp at h
      · rename_i hlen
        rw [if_neg hlen]
        obtain ⟨z, hz, h⟩ := Out.bind_eq_ok.1 h
        obtain ⟨⟨stop, n, cells'⟩, hlp, h⟩ := Out.bind_eq_ok.1 h
        have hstop : stop = .fin ∨ (x.declaresErr = true ∧ ∃ e, stop = .brk e) := by
          cases stop with
          | fin => exact Or.inl rfl
          | ret e => simp at h
          | brk e =>
            simp only at h
            split at h
            · rename_i hd; exact Or.inr ⟨hd, e, rfl⟩
            · simp at h
        obtain ⟨cells2, h1, h2⟩ := sliceLoop_layout (d := x.declaresErr = true) (elemRound_layout hM (ih hx.2) false brk st)
          (fun hd => elemRound_brk_layout hd hx.1 false brk st) l l' 0 _ stop n cells' hl (fun a ha => hn.mem_arr ha) hlp hstop
        rw [hz]
        simp only [Out.ok_bind, h1]
        cases stop with
        | fin => simp at h; obtain ⟨rfl, rfl⟩ := h; exact ⟨_, _, rfl, .list h2, .refl _⟩
        | ret e => simp at h
        | brk e =>
          simp only at h ⊢
          split at h
          · rename_i hd
            rw [if_pos hd]
            simp at h; obtain ⟨rfl, rfl⟩ := h; exact ⟨_, _, rfl, .list h2, .refl _⟩
          · simp at h
    | obj kvs => simp [runExtr, JV.getArr] at h
    | null | bool | num | str => rw [hv.leaf (by simp) (by simp)]; exact ⟨_, _, h, .refl _, .refl _⟩
  | map json star t x ih =>
    intro hx i v v' fld val fld1 hn hv h
    cases v with
    | obj kvs =>
      obtain ⟨mid, kvs', rfl, _, _⟩ := hv.of_obj
      simp only [runExtr, JV.getObj] at h ⊢
      obtain ⟨m0, hm0, h⟩ := Out.bind_eq_ok.1 h
      obtain ⟨⟨e, m⟩, hm, h⟩ := Out.bind_eq_ok.1 h
      cases e with
      | some e => simp at h
      | none =>
        obtain ⟨m2, h1, h2⟩ := mapLoop_layout hM (ih hx) hn hv hm
        rw [hm0]
        simp only [Out.ok_bind, h1]
        simp at h; obtain ⟨rfl, rfl⟩ := h
        refine ⟨_, _, rfl, h2, ?_⟩
        split
        · exact .refl _
        · exact h2
    | arr l => simp [runExtr, JV.getObj] at h
    | null | bool | num | str => rw [hv.leaf (by simp) (by simp)]; exact ⟨_, _, h, .refl _, .refl _⟩
  | nestedFresh t =>
    intro hx i v v' fld val fld1 hn hv h
    simp only [runExtr] at h ⊢
    obtain ⟨z, hz, h⟩ := Out.bind_eq_ok.1 h
    obtain ⟨⟨e, w⟩, hw, h⟩ := Out.bind_eq_ok.1 h
    cases e with
    | some e => simp at h
    | none =>
      simp at h; obtain ⟨rfl, rfl⟩ := h
      obtain ⟨w', h1, h2⟩ := fillT_layout hM t hn hv hw
      exact ⟨w', fld, by rw [hz]; simp only [Out.ok_bind, h1, Out.pure_eq], h2, .refl _⟩
  | nestedInPlace t =>
    intro hx i v v' fld val fld1 hn hv h
    simp only [runExtr] at h ⊢
    obtain ⟨⟨e, w⟩, hw, h⟩ := Out.bind_eq_ok.1 h
    cases e with
    | some e => simp at h
    | none =>
      simp at h; obtain ⟨rfl, rfl⟩ := h
      obtain ⟨w', h1, h2⟩ := fillT_layout hM t hn hv hw
      exact ⟨w', w', by rw [h1]; simp only [Out.ok_bind, Out.pure_eq], h2, h2⟩
  | int | uint | float | bool | strChecked _ | strUnchecked | time _ _ | uuid _ | bytes _ =>
    intro hx i v v' fld val fld1 hn hv h
    cases v with
    | arr l => simp [runExtr, JV.getInt, JV.getUint, JV.getFloat, JV.getBool, JV.getStr, bytesFill, JV.isNull] at h
    | obj l => simp [runExtr, JV.getInt, JV.getUint, JV.getFloat, JV.getBool, JV.getStr, bytesFill, JV.isNull] at h
    | null | bool | num | str => rw [hv.leaf (by simp) (by simp)]; exact ⟨_, _, h, .refl _, .refl _⟩

theorem storeField_layout (hM : OrderFree M) (st : Store) {val val' fld fld' w : GoVal} (hv : SameValue val val') (hf : SameValue fld fld')
    (h : storeField M st val fld = .ok w) : ∃ w', storeField M st val' fld' = .ok w' ∧ SameValue w w' := by
  cases st <;> simp only [storeField] at h ⊢
  case filled => simp at h; subst h; exact ⟨_, rfl, hf⟩
  case val t => exact convT_layout hM t hv h
  case ref t =>
    obtain ⟨u, hu, h⟩ := Out.bind_eq_ok.1 h
    simp at h; subst h
    obtain ⟨u', h1, h2⟩ := convT_layout hM t hv hu
    exact ⟨.ptr u', by rw [h1]; rfl, .ptr h2⟩
  case named t =>
    obtain ⟨u, hu, h⟩ := Out.bind_eq_ok.1 h
    simp at h; subst h
    obtain ⟨u', h1, h2⟩ := convT_layout hM t hv hu
    exact ⟨.ptr u', by rw [h1]; rfl, .ptr h2⟩
  case refNamed t =>
    obtain ⟨u, hu, h⟩ := Out.bind_eq_ok.1 h
    simp at h; subst h
    obtain ⟨u', h1, h2⟩ := convT_layout hM t hv hu
    exact ⟨.ptr (.ptr u'), by rw [h1]; rfl, .ptr (.ptr h2)⟩

theorem exceeds_layout {v v' : GoVal} (h : SameValue v v') (m : MaxCheck) : exceeds m v' = exceeds m v := by
  cases h <;> cases m <;> rfl

theorem runField_layout (hM : OrderFree M) {f : FieldFill} (hx : f.x.calm) {v v' : JV} {fld g : GoVal} (hn : NoRepeats v) (hv : SameDoc v v')
    (h : runField M f v fld = .ok (none, g)) : ∃ g', runField M f v' fld = .ok (none, g') ∧ SameValue g g' := by
  unfold runField at h ⊢
  have hget : ((if f.json = [] then some v else v.get f.json) = none ∧ (if f.json = [] then some v' else v'.get f.json) = none) ∨
      ∃ a b, (if f.json = [] then some v else v.get f.json) = some a ∧ (if f.json = [] then some v' else v'.get f.json) = some b ∧
        SameDoc a b ∧ NoRepeats a := by
    split
    · exact Or.inr ⟨v, v', rfl, rfl, hv, hn⟩
    · exact hv.get hn f.json
  generalize (if f.json = [] then some v else v.get f.json) = X at h hget
  generalize (if f.json = [] then some v' else v'.get f.json) = X' at hget ⊢
  rcases hget with ⟨rfl, rfl⟩ | ⟨a, b, rfl, rfl, hab, hna⟩
  · exact ⟨g, h, .refl _⟩
  · simp only at h ⊢
    rw [hab.isNull]
    split at h
    · rename_i w hw
      split at hw
      · cases hw
      · rename_i hc
        rw [if_neg hc]
        cases hw
        simp only
        obtain ⟨r, hr, h⟩ := Out.bind_eq_ok.1 h
        cases r with
        | ret e c => simp at h
        | done q c =>
          cases q with
          | error e => simp only at h; split at h <;> simp at h
          | ok val =>
            obtain ⟨val', c', h1, h2, h3⟩ := runExtr_layout hM f.x hx 0 a b fld val c hna hab hr
            rw [h1]
            simp only [Out.ok_bind] at h ⊢
            have he : f.max.bind (exceeds · val') = f.max.bind (exceeds · val) := by
              cases f.max with
              | none => rfl
              | some m => exact exceeds_layout h2 m
            rw [he]
            split at h
            · simp at h
            · rename_i he'
              obtain ⟨u, hu, h⟩ := Out.bind_eq_ok.1 h
              simp at h; subst h
              obtain ⟨u', h4, h5⟩ := storeField_layout hM f.store h2 h3 hu
              exact ⟨u', by rw [h4]; rfl, h5⟩
    · rename_i hw
      split at hw
      · rename_i hc; rw [if_pos hc]; exact ⟨g, h, .refl _⟩
      · cases hw

theorem runFields_layout (hM : OrderFree M) {v v' : JV} (hn : NoRepeats v) (hv : SameDoc v v') : ∀ (fs : List (Option FieldFill)) (gs gs' : List GoVal),
    (∀ f, some f ∈ fs → f.x.calm) → runFields M v fs gs = .ok (none, gs') →
    ∃ gs2, runFields M v' fs gs = .ok (none, gs2) ∧ Each2 SameValue gs' gs2
  | [], [], gs', _, h => by simp [runFields] at h; subst h; exact ⟨[], rfl, .nil⟩
  | [], _ :: _, gs', _, h => by simp [runFields] at h
  | none :: fs, [], gs', _, h => by simp [runFields] at h
  | some _ :: fs, [], gs', _, h => by simp [runFields] at h
  | none :: fs, g :: gs, gs', hx, h => by
    simp only [runFields] at h ⊢
    obtain ⟨⟨e, r⟩, hr, h⟩ := Out.bind_eq_ok.1 h
    simp at h
    obtain ⟨rfl, rfl⟩ := h
    obtain ⟨r', h1, h2⟩ := runFields_layout hM hn hv fs gs r (fun f hf => hx f (by simp [hf])) hr
    exact ⟨g :: r', by rw [h1]; rfl, h2.cons (.refl _)⟩
  | some f :: fs, g :: gs, gs', hx, h => by
    simp only [runFields] at h ⊢
    obtain ⟨⟨e, u⟩, hu, h⟩ := Out.bind_eq_ok.1 h
    cases e with
    | some e => simp at h
    | none =>
      simp only at h
      obtain ⟨⟨e, r⟩, hr, h⟩ := Out.bind_eq_ok.1 h
      simp at h
      obtain ⟨rfl, rfl⟩ := h
      obtain ⟨u', h3, h4⟩ := runField_layout hM (hx f (by simp)) hn hv hu
      obtain ⟨r', h1, h2⟩ := runFields_layout hM hn hv fs gs r (fun f hf => hx f (by simp [hf])) hr
      exact ⟨u' :: r', by rw [h3]; simp only [Out.ok_bind, h1, Out.pure_eq], h2.cons h4⟩

def FillIR.calm : FillIR → Prop
  | .struct _ _ fs => ∀ f, some f ∈ fs → f.x.calm
  | .map _ _ x | .list _ _ x | .transit _ x => x.calm
  | .bytes _ => True

theorem listRound_layout (hM : OrderFree M) {x : Extr} (hx : TemplateSame M x) (elt : TExpr) (i : Nat) (a a' : JV) (c w : GoVal)
    (hn : NoRepeats a) (ha : SameDoc a a') (h : listRound M elt x i a c = .ok (.store w)) :
    ∃ w', listRound M elt x i a' c = .ok (.store w') ∧ SameValue w w' := by
  unfold listRound at h ⊢
  obtain ⟨t, ht, h⟩ := Out.bind_eq_ok.1 h
  cases t with
  | ret e c' => simp at h
  | done q c' =>
    cases q with
    | error e => simp at h
    | ok val =>
      simp only at h
      obtain ⟨u, hu, h⟩ := Out.bind_eq_ok.1 h
      simp at h; subst h
      obtain ⟨val', c2, h1, h2, h3⟩ := hx i a a' .nil val c' hn ha ht
      obtain ⟨w', h4, h5⟩ := convT_layout hM elt h2 hu
      exact ⟨w', by rw [h1]; simp only [Out.ok_bind, h4, Out.pure_eq], h5⟩

theorem runFill_layout (hM : OrderFree M) {ir : FillIR} (hx : ir.calm) {v v' : JV} {s w : GoVal} (hn : NoRepeats v) (hv : SameDoc v v')
    (h : runFill M ir v s = .ok (none, w)) : ∃ w', runFill M ir v' s = .ok (none, w') ∧ SameValue w w' := by
  have hfin : ∀ st : Stop, st.err = none → st = .fin := by intro st h; cases st <;> simp [Stop.err] at h; rfl
  cases ir with
  | struct names strict fs =>
    cases s <;> simp only [runFill, reduceCtorEq] at h ⊢
    rename_i gs
    cases hval : validate names strict v with
    | some e => rw [hval] at h; simp at h
    | none =>
      rw [hval] at h
      rw [(validate_iff names strict v').2 (hv.acceptable ((validate_iff names strict v).1 hval))]
      simp only at h ⊢
      obtain ⟨⟨e, gs'⟩, hr, h⟩ := Out.bind_eq_ok.1 h
      simp at h
      obtain ⟨rfl, rfl⟩ := h
      obtain ⟨gs2, h1, h2⟩ := runFields_layout hM hn hv fs gs gs' hx hr
      exact ⟨.struct gs2, by rw [h1]; rfl, .struct h2.1 h2.2⟩
  | map star t x =>
    cases v with
    | obj kvs =>
      obtain ⟨mid, kvs', rfl, _, _⟩ := hv.of_obj
      simp only [runFill, JV.getObj, JV.isNull, Bool.false_eq_true, if_false] at h ⊢
      obtain ⟨⟨e, m⟩, hm, h⟩ := Out.bind_eq_ok.1 h
      simp at h
      obtain ⟨rfl, rfl⟩ := h
      obtain ⟨m2, h1, h2⟩ := mapLoop_layout hM (runExtr_layout hM x hx) hn hv hm
      exact ⟨.map m2, by rw [h1]; rfl, h2⟩
    | arr l => simp [runFill, JV.getObj, JV.isNull] at h
    | null | bool | num | str => rw [hv.leaf (by simp) (by simp)]; exact ⟨_, h, .refl _⟩
  | list len elt x =>
    cases v with
    | arr l =>
      obtain ⟨l', rfl, hl⟩ := hv.of_list
      have hround := sliceLoop_layout (d := False) (listRound_layout hM (runExtr_layout hM x hx) elt) (fun h => h.elim)
      cases len with
      | none =>
        simp only [runFill, JV.getArr, JV.isNull, Bool.false_eq_true, if_false] at h ⊢
        obtain ⟨z, hz, h⟩ := Out.bind_eq_ok.1 h
        obtain ⟨⟨stop, n, cells'⟩, hlp, h⟩ := Out.bind_eq_ok.1 h
        simp at h
        obtain ⟨h1, rfl⟩ := h
        cases hfin stop h1
        obtain ⟨c2, h2, h3⟩ := hround l l' 0 _ .fin n cells' hl (fun a ha => hn.mem_arr ha) hlp (Or.inl rfl)
        rw [hz]
        simp only [Out.ok_bind, hl.1, h2, Out.pure_eq]
        exact ⟨_, rfl, .slice h3.1 h3.2 rfl (by simp)⟩
      | some n =>
        simp only [runFill, JV.getArr, JV.isNull, Bool.false_eq_true, if_false] at h ⊢
        rw [hl.1]
        split at h
        · simp at h
        · rename_i hlen
          rw [if_neg hlen]
          cases s <;> simp only [reduceCtorEq] at h ⊢
          obtain ⟨⟨stop, n, cells'⟩, hlp, h⟩ := Out.bind_eq_ok.1 h
          simp at h
          obtain ⟨h1, rfl⟩ := h
          cases hfin stop h1
          obtain ⟨c2, h2, h3⟩ := hround l l' 0 _ .fin n cells' hl (fun a ha => hn.mem_arr ha) hlp (Or.inl rfl)
          rw [h2]
          exact ⟨_, rfl, .list h3⟩
    | obj kvs => cases len <;> simp [runFill, JV.getArr, JV.isNull] at h
    | null | bool | num | str => rw [hv.leaf (by simp) (by simp)]; exact ⟨_, h, .refl _⟩
  | bytes len =>
    cases v with
    | arr l => simp [runFill, bytesFill, JV.getStr, JV.isNull] at h
    | obj kvs => simp [runFill, bytesFill, JV.getStr, JV.isNull] at h
    | null | bool | num | str => rw [hv.leaf (by simp) (by simp)]; exact ⟨_, h, .refl _⟩
  | transit t x =>
    simp only [runFill] at h ⊢
    obtain ⟨r, hr, h⟩ := Out.bind_eq_ok.1 h
    cases r with
    | ret e c => simp at h
    | done q c =>
      cases q with
      | error e => simp at h
      | ok val =>
        obtain ⟨val', c', h1, h2, _⟩ := runExtr_layout hM x hx 0 v v' s val c hn hv hr
        simp only at h
        obtain ⟨u, hu, h⟩ := Out.bind_eq_ok.1 h
        simp at h; subst h
        obtain ⟨u', h3, h4⟩ := convT_layout hM t h2 hu
        exact ⟨u', by rw [h1]; simp only [Out.ok_bind, h3, Out.pure_eq], h4⟩

/-! ### the code generated -/

variable {Γ : Env}

omit [Ext] in
theorem noMaps_resolve (hΓ : NoSlicesOfMaps Γ) {e : TExpr} (h : NoMapsIn Γ e) : NoMapsIn Γ (resolve Γ e) := by
  unfold resolve
  split
  · rename_i ho
    cases hd : Γ.denoted e <;> rw [hd] at ho <;> simp [TExpr.isOrdinal] at ho
    trivial
  · split
    · rename_i n _
      unfold Env.denotedIdent
      split
      · rename_i d hd
        cases d with
        | struct => trivial
        | «alias» t => exact hΓ.decls n t hd
      · trivial
    · exact h

omit [Ext] in
theorem noMaps_resolve2 {e : TExpr} (h : NoMapsIn Γ e) : NoMapsIn Γ (resolve2 Γ e) := by
  unfold resolve2
  split
  · rename_i ho
    cases hd : Γ.denoted e <;> rw [hd] at ho <;> simp [TExpr.isOrdinal] at ho
    trivial
  · exact h

omit [Ext] in
theorem noMaps_pointee {e : TExpr} (h : NoMapsIn Γ e) : NoMapsIn Γ (pointee e) := by
  cases e <;> first | trivial | simpa [pointee, NoMapsIn] using h

/-- the template for maps is used for maps only -/
theorem map_template {k : Nat} {f : Fld} {path : PathE} {r : TVGen} (hg : typedValue Γ k f path = .ok r)
    (href : f.refx = resolve Γ f.expr) (hns : r.isStarType = false) {a : Str} {b : Bool} {c : TExpr} {d : Extr} (hd : r.x = .map a b c d) :
    ∃ val, Is Γ f.expr (.map val) := by
  cases k with
  | zero => simp [typedValue] at hg
  | succ k =>
    have hk := kind_final Γ f.expr
    rw [← href] at hk
    unfold typedValue at hg
    simp only [resolve2_def] at hg
    generalize resolve2 Γ f.refx = T at hk hg
    cases T with
    | prim p =>
      obtain ⟨x, hx, hr⟩ := Out.bind_eq_ok.1 hg
      simp only [Out.pure_eq, Out.ok.injEq] at hr
      subst hr
      have := primExtraction_declares hx
      rw [show x = _ from hd] at this
      cases this
    | named m =>
      simp only [Out.ok.injEq] at hg; subst hg
      simp only [nestedExtraction] at hd
      split at hd <;> simp at hd
    | sel m =>
      simp only [Out.ok.injEq] at hg; subst hg
      simp only [nestedExtraction] at hd
      split at hd <;> simp at hd
    | structT =>
      simp only [Out.ok.injEq] at hg; subst hg
      simp only [nestedExtraction] at hd
      split at hd <;> simp at hd
    | star u =>
      obtain ⟨r', _, hr⟩ := Out.bind_eq_ok.1 hg
      simp only [Out.pure_eq, Out.ok.injEq] at hr
      subst hr
      simp at hns
    | time =>
      obtain ⟨lo, hl, hr⟩ := Out.bind_eq_ok.1 hg
      simp only [Out.pure_eq, Out.ok.injEq] at hr
      subst hr
      cases hd
    | uuid => simp only [Out.ok.injEq] at hg; subst hg; cases hd
    | map val =>
      cases hk with
      | is h => exact ⟨val, h⟩
      | call h hT => simp at hT
    | slice elt =>
      exfalso
      simp only at hg
      split at hg
      · simp only [Out.ok.injEq] at hg; subst hg; simp at hd
      · split at hg
        · cases hg
        · split at hg
          · cases hg
          · obtain ⟨r', _, hr⟩ := Out.bind_eq_ok.1 hg
            split at hr
            · cases hr
            · split at hr
              · cases hr
              · simp only [Out.pure_eq, Out.ok.injEq] at hr; subst hr; simp at hd
    | array n elt =>
      exfalso
      simp only at hg
      split at hg
      · simp only [Out.ok.injEq] at hg; subst hg; simp at hd
      · split at hg
        · cases hg
        · obtain ⟨r', _, hr⟩ := Out.bind_eq_ok.1 hg
          split at hr
          · cases hr
          · split at hr
            · cases hr
            · cases hr
            · cases hr
            · simp only [Out.pure_eq, Out.ok.injEq] at hr; subst hr; simp at hd

theorem typedValue_calm (hΓ : NoSlicesOfMaps Γ) : ∀ {k : Nat} {f : Fld} {path : PathE} {r : TVGen}, typedValue Γ k f path = .ok r →
    NoMapsIn Γ f.refx → r.x.calm := by
  intro k
  induction k with
  | zero => intro f path r hg; simp [typedValue] at hg
  | succ k ih =>
    intro f path r hg hn
    replace hn := noMaps_resolve2 hn
    unfold typedValue at hg
    simp only [resolve2_def] at hg
    have nested : (nestedExtraction f).1.calm := by
      simp only [nestedExtraction]; split <;> trivial
    generalize resolve2 Γ f.refx = T at hg hn
    cases T with
    | prim p =>
      obtain ⟨x, hx, hr⟩ := Out.bind_eq_ok.1 hg
      simp only [Out.pure_eq, Out.ok.injEq] at hr
      subst hr
      cases p <;> simp only [primExtraction, Out.ok.injEq, reduceCtorEq] at hx <;> first
        | (subst hx; trivial)
        | (split at hx <;> cases hx <;> trivial)
    | named m => simp only [Out.ok.injEq] at hg; subst hg; exact nested
    | sel m => simp only [Out.ok.injEq] at hg; subst hg; exact nested
    | structT => simp only [Out.ok.injEq] at hg; subst hg; exact nested
    | star u =>
      obtain ⟨r', h1, hr⟩ := Out.bind_eq_ok.1 hg
      simp only [Out.pure_eq, Out.ok.injEq] at hr
      subst hr
      exact ih (f := { f with refx := u }) (r := r') h1 (by simpa only [NoMapsIn] using hn)
    | time =>
      obtain ⟨lo, hl, hr⟩ := Out.bind_eq_ok.1 hg
      simp only [Out.pure_eq, Out.ok.injEq] at hr
      subst hr
      trivial
    | uuid => simp only [Out.ok.injEq] at hg; subst hg; trivial
    | map val =>
      simp only at hg
      split at hg
      · cases hg
      · obtain ⟨r', h1, hr⟩ := Out.bind_eq_ok.1 hg
        have hc := ih h1 (by
          rw [prepare_resolve, prepare_expr]; exact noMaps_resolve hΓ (noMaps_pointee hn))
        split at hr
        · cases hr
        · split at hr <;> first
            | (simp only [Out.pure_eq, Out.ok.injEq] at hr; subst hr; exact hc)
            | cases hr
    | slice elt =>
      simp only at hg
      split at hg
      · simp only [Out.ok.injEq] at hg; subst hg; trivial
      · split at hg
        · cases hg
        · split at hg
          · cases hg
          · obtain ⟨r', h1, hr⟩ := Out.bind_eq_ok.1 hg
            have hc := ih h1 (by
              rw [prepare_resolve, prepare_expr]; exact noMaps_resolve hΓ (noMaps_pointee hn.2))
            split at hr
            · cases hr
            · rename_i hns
              have hm : ∀ a b c d, r'.x ≠ .map a b c d := fun a b c d hd =>
                hn.1 (by
                  have := map_template h1 (prepare_resolve ..) (by simpa using hns) hd
                  rwa [prepare_expr] at this)
              split at hr
              · cases hr
              · simp only [Out.pure_eq, Out.ok.injEq] at hr; subst hr; exact ⟨hm, hc⟩
    | array n elt =>
      simp only at hg
      split at hg
      · simp only [Out.ok.injEq] at hg; subst hg; trivial
      · split at hg
        · cases hg
        · obtain ⟨r', h1, hr⟩ := Out.bind_eq_ok.1 hg
          have hc := ih h1 (by
            rw [prepare_resolve, prepare_expr]; exact noMaps_resolve hΓ (noMaps_pointee hn))
          split at hr
          · cases hr
          · split at hr
            · cases hr
            · cases hr
            · cases hr
            · rename_i hm
              simp only [Out.pure_eq, Out.ok.injEq] at hr; subst hr; exact ⟨hm, hc⟩

theorem genFields_calm (hΓ : NoSlicesOfMaps Γ) {k : Nat} : ∀ {fds : List FieldDecl} {fs : List (Option FieldFill)},
    genFields Γ k fds = .ok fs → (∀ fd ∈ fds, NoMapsIn Γ fd.typ) → ∀ f, some f ∈ fs → f.x.calm
  | [], fs, h, _, f, hf => by simp [genFields] at h; subst h; cases hf
  | fd :: fds, fs, h, hn, f, hf => by
    simp only [genFields] at h
    obtain ⟨r, hr, h⟩ := Out.bind_eq_ok.1 h
    obtain ⟨rs, hrs, h⟩ := Out.bind_eq_ok.1 h
    simp at h; subst h
    rcases List.mem_cons.1 hf with e | hf
    · subst e
      obtain ⟨_, _, tv, htv, hx, _⟩ := genFieldFill_some hr
      rw [hx]
      exact typedValue_calm hΓ htv (by rw [prepare_resolve, prepare_expr]; exact noMaps_resolve hΓ (noMaps_pointee (hn fd (by simp))))
    · exact genFields_calm hΓ hrs (fun fd hfd => hn fd (by simp [hfd])) f hf

theorem genFill_calm (hΓ : NoSlicesOfMaps Γ) {k n : Nat} {d : Decl} {ir : FillIR} (hd : Γ.decl n = some d) (h : genFill Γ k d = .ok ir) : ir.calm := by
  have el : ∀ {t : TExpr} {b1 : Bool} {tags : Tags} {b2 b3 : Bool} {path : PathE} {r : TVGen}, NoMapsIn Γ t →
      typedValue Γ k (Fld.prepare Γ b1 t tags b2 b3) path = .ok r → r.x.calm := fun ht hr =>
    typedValue_calm hΓ hr (by rw [prepare_resolve, prepare_expr]; exact noMaps_resolve hΓ (noMaps_pointee ht))
  cases d with
  | struct strict fields =>
    simp only [genFill] at h
    obtain ⟨fs, hfs, h⟩ := Out.bind_eq_ok.1 h
    simp at h; subst h
    exact genFields_calm hΓ hfs (hΓ.fields n strict fields · hd)
  | «alias» t =>
    have ht := hΓ.decls n t hd
    cases t with
    | star | structT => simp [genFill] at h
    | map v =>
      simp only [genFill] at h
      obtain ⟨r, hr, h⟩ := Out.bind_eq_ok.1 h
      have hc := el (t := v) ht hr
      split at h
      · cases h
      · split at h <;> first
          | cases h
          | skip
        split at h
        · split at h <;> first
            | (simp only [Out.pure_eq, Out.ok.injEq] at h; subst h; exact hc)
            | cases h
            | (split at h <;> first
                | (simp only [Out.pure_eq, Out.ok.injEq] at h; subst h; exact hc)
                | cases h)
        · simp only [Out.pure_eq, Out.ok.injEq] at h; subst h; exact hc
    | slice elt =>
      simp only [genFill] at h
      split at h
      · cases h; trivial
      · split at h
        · cases h
        · obtain ⟨r, hr, h⟩ := Out.bind_eq_ok.1 h
          have hc := el ht.2 hr
          split at h
          · cases h
          · split at h <;> first
              | (simp only [Out.pure_eq, Out.ok.injEq] at h; subst h; exact hc)
              | cases h
    | array m elt =>
      simp only [genFill] at h
      split at h
      · cases h; trivial
      · split at h
        · cases h
        · obtain ⟨r, hr, h⟩ := Out.bind_eq_ok.1 h
          have hc := el (t := elt) ht hr
          split at h
          · cases h
          · split at h <;> first
              | (simp only [Out.pure_eq, Out.ok.injEq] at h; subst h; exact hc)
              | cases h
    | prim | named | sel | time | uuid =>
      simp only [genFill] at h
      obtain ⟨r, hr, h⟩ := Out.bind_eq_ok.1 h
      have hc := el ht hr
      split at h
      · cases h
      · simp only [Out.pure_eq, Out.ok.injEq] at h; subst h; exact hc

theorem methods_layout (hΓ : NoSlicesOfMaps Γ) (hX : LayoutBlind Γ) : ∀ k, OrderFree (Γ.methods k)
  | 0 => ⟨fun n v v' w _ h => by simp [Env.methods, Methods.loop] at h, fun n v v' s w _ _ h => by simp [Env.methods, Methods.loop] at h⟩
  | k + 1 => by
    have ih := methods_layout hΓ hX k
    refine ⟨fun n v v' w hv h => ?_, fun n v v' s w hn hv h => ?_⟩
    · simp only [Env.methods] at h ⊢
      cases hd : Γ.decl n with
      | none => rw [hd] at h; exact hX.conv n v v' w hd hv h
      | some d =>
        rw [hd] at h
        cases d with
        | struct => simp only [declMethods, Out.ok.injEq] at h ⊢; subst h; exact ⟨_, rfl, hv⟩
        | «alias» t => exact convT_layout ih t hv h
    · simp only [Env.methods] at h ⊢
      cases hd : Γ.decl n with
      | none => rw [hd] at h; exact hX.fill n v v' s w hd hn hv h
      | some d =>
        rw [hd] at h
        simp only [declMethods] at h ⊢
        obtain ⟨ir, hir, h⟩ := Out.bind_eq_ok.1 h
        obtain ⟨w', h1, h2⟩ := runFill_layout ih (genFill_calm hΓ hd hir) hn hv h
        exact ⟨w', by rw [hir]; exact h1, h2⟩

end
end VJ
