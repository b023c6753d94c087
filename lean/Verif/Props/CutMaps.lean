import Verif.Props.Cut
import Verif.Proof.NamedDecode

/-!
# C16: what becomes of an array of maps with a bad value in one of the maps

Slices of maps lose errors like slices of times do (`Props/Cut`).  When a decode reports success,
the slice ends at the first map with a value that is not one of the type.  If the storage had a map
in that place, it has been given the members in front of the bad one; if not, the place is nil.
-/

namespace VJ
set_option linter.unusedSectionVars false

section
variable [Ext] {Γ : Env}

/-- What is left in a place that held `c` by an object with a bad value: the values in front of the
first bad one are put into the map that was there; without a map they are lost. -/
inductive MapCut (Γ : Env) (val : TExpr) (kvs : List (Str × JV)) (c : GoVal) : GoVal → Prop
  | nil {pre post : List (Str × JV)} {key : Str} {bad : JV} {news : List GoVal} (hk : kvs = pre ++ (key, bad) :: post)
      (hbad : ∀ w, ¬ MapValueOf Γ [] val bad w) (hlen : news.length = pre.length)
      (hpre : ∀ (i : Nat) (k : Str) (a : JV) (w : GoVal), pre[i]? = some (k, a) → news[i]? = some w → MapValueOf Γ [] val a w)
      (hc : c = .nil) : MapCut Γ val kvs c .nil
  | map {pre post : List (Str × JV)} {key : Str} {bad : JV} {news : List GoVal} {m : List (Str × GoVal)} (hk : kvs = pre ++ (key, bad) :: post)
      (hbad : ∀ w, ¬ MapValueOf Γ [] val bad w) (hlen : news.length = pre.length)
      (hpre : ∀ (i : Nat) (k : Str) (a : JV) (w : GoVal), pre[i]? = some (k, a) → news[i]? = some w → MapValueOf Γ [] val a w)
      (hc : c = .map m) : MapCut Γ val kvs c (.map (setAll m ((pre.map (·.1)).zip news)))

/-- One map of the slice, decoded into the place that held `c`: `null` is nil for a map type without
a name, otherwise the members are added to what was there. -/
def MapPlace (Γ : Env) (elt : TExpr) (a : JV) (c w : GoVal) : Prop :=
  (elt.nullLike = true ∧ a = .null ∧ w = .nil) ∨ (¬ (elt.nullLike = true ∧ a = .null) ∧ Decodes Γ [] elt a c w)

/-- the loop over the members of the array -/
inductive CutMaps (Γ : Env) (elt val : TExpr) : List JV → List GoVal → List GoVal → Prop
  | all {cells : List GoVal} : CutMaps Γ elt val [] cells []
  | next {a : JV} {l : List JV} {c w : GoVal} {cells es : List GoVal} (ha : MapPlace Γ elt a c w) (h : CutMaps Γ elt val l cells es) :
      CutMaps Γ elt val (a :: l) (c :: cells) (w :: es)
  | cut {kvs : List (Str × JV)} {l : List JV} {c c' : GoVal} {cells : List GoVal} (ha : MapCut Γ val kvs c c') :
      CutMaps Γ elt val (.obj kvs :: l) (c :: cells) [c']

/-- a loop over the members of an object that stops with an error -/
theorem mapLoop_stops {M : Nat → Methods} {star : Bool} {val : TExpr} {x : JV → Out TV} :
    ∀ {kvs : List (Str × JV)} {m m' : List (Str × GoVal)} {e : Err}, mapLoop M star val x kvs m = .ok (some e, m') →
      ∃ (pre post : List (Str × JV)) (key : Str) (bad : JV), kvs = pre ++ (key, bad) :: post ∧
        ¬ (star = true ∧ bad = .null) ∧ (∃ e' fld, x bad = .ok (.done (.error e') fld)) ∧
        mapLoop M star val x pre m = .ok (none, m')
  | [], m, m', e, h => by simp [mapLoop] at h
  | (key, v) :: rest, m, m', e, h => by
    simp only [mapLoop] at h
    split at h
    · rename_i hs
      obtain ⟨pre, post, k, bad, rfl, h1, h2, h3⟩ := mapLoop_stops h
      exact ⟨(key, v) :: pre, post, k, bad, rfl, h1, h2, by simp only [mapLoop, hs, if_true, h3]⟩
    · rename_i hs
      obtain ⟨tv, h4, h5⟩ := Out.bind_eq_ok.1 h
      cases tv with
      | ret e' c => cases h5
      | done q c =>
        cases q with
        | error e' =>
          simp only [Out.pure_eq, Out.ok.injEq, Prod.mk.injEq] at h5
          obtain ⟨_, rfl⟩ := h5
          refine ⟨[], rest, key, v, rfl, ?_, ⟨e', c, h4⟩, rfl⟩
          rintro ⟨h1, rfl⟩
          exact hs (by simp [h1, JV.isNull])
        | ok w =>
          obtain ⟨w1, h6, h7⟩ := Out.bind_eq_ok.1 h5
          obtain ⟨pre, post, k, bad, rfl, h1, h2, h3⟩ := mapLoop_stops h7
          refine ⟨(key, v) :: pre, post, k, bad, rfl, h1, h2, ?_⟩
          simp only [mapLoop, hs, Bool.false_eq_true, if_false, h4, Out.ok_bind, h6, h3]

/-- the template for a map that is an element of a slice -/
structure MapElemPlan (Γ : Env) (val : TExpr) (x : Extr) : Prop where
  plan : ∃ (k : Nat) (r : TVGen) (star : Bool) (json json' : Str),
    typedValue Γ k (Fld.prepare Γ false val {} false true) (.const json') = .ok r ∧ r.isStarType = false ∧
    (∀ a b c d e g, r.x ≠ .slice a b c d e g) ∧ (star = true ↔ ∃ u, val = .star u) ∧ x = .map json star (pointee val) r.x

theorem map_elem {elt val : TExpr} (he : Is Γ elt (.map val)) {k : Nat} {r : TVGen}
    (h : typedValue Γ k (Fld.prepare Γ true elt {} false false) .index = .ok r) : MapElemPlan Γ val r.x ∧ r.filled = false := by
  cases k with
  | zero => simp [typedValue] at h
  | succ k =>
    unfold typedValue at h
    simp only [resolve2_def] at h
    rw [prepare_resolve, prepare_expr, is_pointee he (by simp), is_resolve he (by simp) (by simp) (by simp)] at h
    simp only at h
    split at h
    · cases h
    obtain ⟨r', h1, h2⟩ := Out.bind_eq_ok.1 h
    split at h2
    · cases h2
    rename_i hns
    have htags : (Fld.prepare Γ true elt {} false false).tags = {} := rfl
    rw [htags] at h1 h2
    have hstar := prepare_isStar Γ false val {} true
    have hel := prepare_expr Γ false val {} false true
    have hsp : (Fld.prepare Γ false val {} false true).isStar = true ↔ ∃ u, val = .star u := by
      rcases hstar with ⟨h, h'⟩ | ⟨h, _, h'⟩
      · exact ⟨fun _ => ⟨_, h'⟩, fun _ => h⟩
      · rw [h]
        exact ⟨fun h => by simp at h, fun ⟨u, hu⟩ => absurd hu (h' u)⟩
    split at h2
    case h_8 hx _ _ =>
      simp only [Out.pure_eq, Out.ok.injEq] at h2
      subst h2
      exact ⟨⟨_, r', _, _, _, h1, by simpa using hns, fun a b c d e g h => hx a b c d e g h, hsp, by rw [hel]⟩, rfl⟩
    all_goals cases h2

/-- the statements for a field that is a slice of maps -/
theorem maps_field {k : Nat} {fd : FieldDecl} {f : FieldFill} (hg : genFieldFill Γ k fd = .ok (some f)) {elt val : TExpr}
    (he : Is Γ elt (.map val)) (ht : Is Γ fd.typ (.slice elt)) :
    ∃ (json : Str) (x : Extr), f.x = .slice json elt elt.nullLike x true (.val elt) ∧ MapElemPlan Γ val x ∧ f.store = .val fd.typ ∧ f.max = none := by
  obtain ⟨hj, _, r, htv, hx, hso, _, hnu, _, hmx⟩ := genFieldFill_some hg
  have hep : pointee elt = elt := is_pointee he (by simp)
  have hb : elt.isByte = false := by
    cases hb : elt.isByte with
    | false => rfl
    | true =>
      rw [isByte_iff.1 hb] at he
      cases he
  have hstr : (elt != .prim .string) = true := by cases he <;> simp
  have hhf : (Fld.prepare Γ true fd.typ fd.tags false false).hasField = true := rfl
  have hes : (Fld.prepare Γ true elt {} false false).isStar = false := by
    rcases prepare_isStar Γ true elt {} false with ⟨_, h⟩ | ⟨h, _⟩
    · rw [h] at he; cases he
    · exact h
  have hnl : (Fld.prepare Γ true elt {} false false).isNullable = elt.nullLike := by cases elt <;> rfl
  have hp := is_pointee ht (by simp)
  have hns : (Fld.prepare Γ true fd.typ fd.tags false false).isStar = false := by
    rcases prepare_isStar Γ true fd.typ fd.tags false with ⟨_, h⟩ | ⟨h, _⟩
    · rw [h] at ht; cases ht
    · exact h
  have hres : resolve2 Γ (Fld.prepare Γ true fd.typ fd.tags false false).refx = .slice elt := by
    rw [prepare_resolve, prepare_expr, hp, is_resolve ht (by simp) (by simp) (by simp)]
  have hmax : f.max = none := by
    rw [hmx]
    split
    · rfl
    · generalize (Fld.prepare Γ true fd.typ fd.tags false false).refx = R at hres
      cases R with
      | prim p => exact absurd (show TExpr.prim p = .slice elt from hres) (by simp)
      | _ => rfl
  cases k with
  | zero => simp [typedValue] at htv
  | succ k =>
    unfold typedValue at htv
    simp only [resolve2_def] at htv
    rw [hres] at htv
    simp only [hb, hns, hhf, Bool.false_eq_true, if_false, Bool.and_false, Bool.not_true, Bool.false_and] at htv
    obtain ⟨r', h1, h2⟩ := Out.bind_eq_ok.1 htv
    obtain ⟨h3, h4⟩ := map_elem he h1
    split at h2
    · cases h2
    split at h2
    · cases h2
    simp only [Out.pure_eq, Out.ok.injEq] at h2
    subst h2
    refine ⟨(Fld.prepare Γ true fd.typ fd.tags false false).tags.jsonName, r'.x, ?_, h3, ?_, hmax⟩
    · rw [hx, h4, prepare_expr, hnl, hep, hstr, hes]
      simp only [Bool.false_eq_true, if_false]
    · simp only [storeOf, hns] at hso
      simpa [prepare_expr, hp] using hso.symm

/-- a value of a map, as the loop decodes it -/
theorem map_value {val : TExpr} {k : Nat} {r : TVGen} {json : Str}
    (hr : typedValue Γ k (Fld.prepare Γ false val {} false true) (.const json) = .ok r) (hns : r.isStarType = false)
    (hxs : ∀ a b c d e g, r.x ≠ .slice a b c d e g) (hke : KeepsErrors Γ (pointee val)) {star : Bool} (hs : star = true ↔ ∃ u, val = .star u)
    {K : Nat} {a : JV} {w : GoVal}
    (h : (star = true ∧ a = .null ∧ w = .nil) ∨
      (¬ (star = true ∧ a = .null) ∧ ∃ w0 fld w1, runExtr (Γ.methods K) r.x 0 a .nil = .ok (.done (.ok w0) fld) ∧
        convT (Γ.methods K) (pointee val) w0 = .ok w1 ∧ w = if star then .ptr w1 else w1)) : MapValueOf Γ [] val a w := by
  rcases h with ⟨h1, h2, h3⟩ | ⟨h1, w0, fld, w1, h2, h3, h4⟩
  · exact .inl ⟨hs.1 h1, h2, h3⟩
  · refine .inr ⟨by rwa [← hs], ?_⟩
    have hd := elem_sound hr hns hke hxs h2 h3
    by_cases hst : ∃ u, val = .star u
    · obtain ⟨u, rfl⟩ := hst
      rw [hs.2 ⟨u, rfl⟩, if_pos rfl] at h4
      subst h4
      exact .other (fun n hc => by cases hc) fun _ => .ptr hd
    · have hsf : star = false := by
        cases hb : star with
        | false => rfl
        | true => exact absurd (hs.1 hb) hst
      rw [hsf] at h4
      simp only [Bool.false_eq_true, if_false] at h4
      subst h4
      have hp : pointee val = val := by cases val <;> first | rfl | exact absurd ⟨_, rfl⟩ hst
      rwa [hp] at hd

/-- a value that the loop refuses is not one of the type -/
theorem map_value_bad {val : TExpr} {k : Nat} {r : TVGen} {json : Str}
    (hr : typedValue Γ k (Fld.prepare Γ false val {} false true) (.const json) = .ok r) (hns : r.isStarType = false)
    {star : Bool} (hs : star = true ↔ ∃ u, val = .star u) {K : Nat} {a : JV} (hnn : ¬ (star = true ∧ a = .null)) {e : Err} {fld : GoVal}
    (h : runExtr (Γ.methods K) r.x 0 a .nil = .ok (.done (.error e) fld)) (w : GoVal) : ¬ MapValueOf Γ [] val a w := by
  rw [hs] at hnn
  rintro (⟨h1, h2, _⟩ | ⟨_, hd⟩)
  · exact hnn ⟨h1, h2⟩
  · have hd' : ∃ w', DecodesNew Γ [] (pointee val) a w' := by
      by_cases hst : ∃ u, val = .star u
      · obtain ⟨u, rfl⟩ := hst
        have := decodesNew_inv hd (fun n h => by cases h) .nil
        obtain ⟨w1, _, hd1⟩ := decodes_ptr_inv this (is_resolve (.self _) (by simp) (by simp) (by simp))
        exact ⟨_, hd1⟩
      · have hp : pointee val = val := by cases val <;> first | rfl | exact absurd ⟨_, rfl⟩ hst
        exact ⟨w, by rwa [hp]⟩
    obtain ⟨w', hd'⟩ := hd'
    obtain ⟨K', v, fld', h3, _⟩ := elem_complete hr hns hd' 0 .nil
    have h4 := (runExtr_mono (fun n => methods_mono Γ (Nat.le_max_left K K') n) r.x 0 a .nil).eq_of_ok h
    have h5 := (runExtr_mono (fun n => methods_mono Γ (Nat.le_max_right K K') n) r.x 0 a .nil).eq_of_ok h3
    rw [h4] at h5
    cases h5

/-- one round of the loop -/
theorem maps_round {elt val : TExpr} (he : Is Γ elt (.map val)) (hke : KeepsErrors Γ (pointee val)) {x : Extr} (h : MapElemPlan Γ val x)
    {k i : Nat} {a : JV} {c : GoVal} {r : Cell}
    (hr : elemRound (Γ.methods k) elt.nullLike true (.val elt) (runExtr (Γ.methods k) x) i a c = .ok r) :
    (∃ e c', r = .ret e c') ∨ (∃ w, r = .store w ∧ MapPlace Γ elt a c w) ∨
      ∃ e kvs c', r = .brk e c' ∧ a = .obj kvs ∧ MapCut Γ val kvs c c' := by
  obtain ⟨k0, r0, star, json, json', htv, hns, hxs, hs, rfl⟩ := h.plan
  unfold elemRound at hr
  split at hr
  · rename_i hn
    simp only [Bool.and_eq_true] at hn
    cases hr
    have : a = .null := by cases a <;> simp_all [JV.isNull]
    exact .inr (.inl ⟨_, rfl, .inl ⟨hn.1, this, rfl⟩⟩)
  · rename_i hn
    have hnn : ¬ (elt.nullLike = true ∧ a = .null) := by
      rintro ⟨h1, rfl⟩; exact hn (by simp [h1, JV.isNull])
    obtain ⟨tv, h1, h2⟩ := Out.bind_eq_ok.1 hr
    cases a with
    | obj kvs =>
      simp only [runExtr, JV.getObj] at h1
      obtain ⟨⟨m0, b⟩, hm0, h1⟩ := Out.bind_eq_ok.1 h1
      obtain ⟨⟨e, m⟩, hm, h1⟩ := Out.bind_eq_ok.1 h1
      have hold : (c = .nil ∧ m0 = [] ∧ b = true) ∨ (c = .map m0 ∧ b = false) := by
        cases c with
        | nil => simp at hm0; exact .inl ⟨rfl, hm0.1, hm0.2⟩
        | map m => simp at hm0; exact .inr ⟨by rw [hm0.1], hm0.2⟩
        | _ => simp at hm0
      cases e with
      | none =>
        simp only [Out.pure_eq, Out.ok.injEq] at h1
        subst h1
        obtain ⟨w, h3, h4⟩ := Out.bind_eq_ok.1 h2
        cases h4
        refine .inr (.inl ⟨w, rfl, .inr ⟨hnn, ?_⟩⟩)
        simp only [storeElem] at h3
        rw [convT_is he (by simp) (by simp) (by simp) h3]
        obtain ⟨news, hlen, rfl, hnews⟩ := mapLoop_ok hm
        have hv : ∀ (j : Nat) (key : Str) (a : JV) (w : GoVal), kvs[j]? = some (key, a) → news[j]? = some w → MapValueOf Γ [] val a w :=
          fun j key a w hj hw => map_value htv hns hxs hke hs (hnews j key a w hj hw)
        refine .map he (hold.imp (fun h => ⟨h.1, h.2.1⟩) And.left) hlen ?_ ?_
        · intro j key w hst hj hw
          rcases hv j key _ w hj hw with ⟨_, _, h⟩ | ⟨h, _⟩
          · exact h
          · exact absurd ⟨hst, rfl⟩ h
        · intro j key a w hj hw hnn
          rcases hv j key _ w hj hw with ⟨h, h', _⟩ | ⟨_, h⟩
          · exact absurd h' (hnn h)
          · exact h
      | some e =>
        simp only [Out.pure_eq, Out.ok.injEq] at h1
        subst h1
        simp only [if_true, Out.pure_eq, Out.ok.injEq] at h2
        refine .inr (.inr ⟨_, kvs, _, h2.symm, rfl, ?_⟩)
        obtain ⟨pre, post, key, bad, hk, hnb, ⟨e', fld, hb⟩, hp⟩ := mapLoop_stops hm
        obtain ⟨news, hlen, hm', hnews⟩ := mapLoop_ok hp
        have hv : ∀ (j : Nat) (key : Str) (a : JV) (w : GoVal), pre[j]? = some (key, a) → news[j]? = some w → MapValueOf Γ [] val a w :=
          fun j key a w hj hw => map_value htv hns hxs hke hs (hnews j key a w hj hw)
        have hbad := map_value_bad htv hns hs hnb hb
        rcases hold with ⟨rfl, _, rfl⟩ | ⟨rfl, rfl⟩
        · exact .nil hk hbad hlen hv rfl
        · simp only [Bool.false_eq_true, if_false]
          rw [hm']
          exact .map hk hbad hlen hv rfl
    | _ =>
      simp only [runExtr, JV.getObj, Out.ok.injEq] at h1
      subst h1
      cases h2
      exact .inl ⟨_, _, rfl⟩

/-- the loop -/
theorem maps_loop {elt val : TExpr} (he : Is Γ elt (.map val)) (hke : KeepsErrors Γ (pointee val)) {x : Extr} (h : MapElemPlan Γ val x) {k : Nat} :
    ∀ {l : List JV} {i n : Nat} {cells cells' : List GoVal} {stop : Stop},
      sliceLoop (elemRound (Γ.methods k) elt.nullLike true (.val elt) (runExtr (Γ.methods k) x)) i l cells = .ok (stop, n, cells') →
      (∀ e, stop ≠ .ret e) → ∃ es, CutMaps Γ elt val l cells es ∧ n = i + es.length ∧ cells' = es ++ cells.drop es.length
  | [], i, n, cells, cells', stop, hr, _ => by
    simp only [sliceLoop, Out.ok.injEq, Prod.mk.injEq] at hr
    obtain ⟨rfl, rfl, rfl⟩ := hr
    exact ⟨[], .all, by simp, by simp⟩
  | a :: l, i, n, [], cells', stop, hr, _ => by simp [sliceLoop] at hr
  | a :: l, i, n, c :: cells, cells', stop, hr, hs => by
    simp only [sliceLoop] at hr
    obtain ⟨r, h1, h2⟩ := Out.bind_eq_ok.1 hr
    rcases maps_round he hke h h1 with ⟨e, c', rfl⟩ | ⟨w, rfl, hd⟩ | ⟨e, kvs, c', rfl, rfl, hd⟩
    · cases h2; exact absurd rfl (hs e)
    · obtain ⟨⟨st, n', cs'⟩, h3, h4⟩ := Out.bind_eq_ok.1 h2
      simp only [Out.pure_eq, Out.ok.injEq, Prod.mk.injEq] at h4
      obtain ⟨rfl, rfl, rfl⟩ := h4
      obtain ⟨es, h5, rfl, rfl⟩ := maps_loop he hke h h3 hs
      exact ⟨w :: es, .next hd h5, by simp; omega, by simp⟩
    · simp only [Out.pure_eq, Out.ok.injEq, Prod.mk.injEq] at h2
      obtain ⟨rfl, rfl, rfl⟩ := h2
      exact ⟨[c'], .cut hd, by simp, by simp⟩

/-- the same by position -/
theorem cutMaps_elements {elt val : TExpr} {l : List JV} {cells es : List GoVal} (h : CutMaps Γ elt val l cells es) :
    (es.length = l.length ∧ ∀ (i : Nat) (a : JV) (c w : GoVal), l[i]? = some a → cells[i]? = some c → es[i]? = some w → MapPlace Γ elt a c w) ∨
    (∃ k kvs c c', es.length = k + 1 ∧ l[k]? = some (.obj kvs) ∧ cells[k]? = some c ∧ es[k]? = some c' ∧ MapCut Γ val kvs c c' ∧
      ∀ (i : Nat) (a : JV) (c w : GoVal), i < k → l[i]? = some a → cells[i]? = some c → es[i]? = some w → MapPlace Γ elt a c w) := by
  induction h with
  | all => exact .inl ⟨rfl, by simp⟩
  | next ha _ ih =>
    rcases ih with ⟨h1, h2⟩ | ⟨k, kvs, c, c', h1, h2, h3, h4, h5, h6⟩
    · refine .inl ⟨by simp [h1], fun i a c w ha' hc hw => ?_⟩
      cases i with
      | zero => simp at ha' hc hw; subst ha'; subst hc; subst hw; exact ha
      | succ i => simp at ha' hc hw; exact h2 i a c w ha' hc hw
    · refine .inr ⟨k + 1, kvs, c, c', by simp [h1], by simpa using h2, by simpa using h3, by simpa using h4, h5, fun i a c w hi ha' hc hw => ?_⟩
      cases i with
      | zero => simp at ha' hc hw; subst ha'; subst hc; subst hw; exact ha
      | succ i => simp at ha' hc hw; exact h6 i a c w (by omega) ha' hc hw
  | cut ha => exact .inr ⟨0, _, _, _, rfl, rfl, rfl, rfl, ha, fun i _ _ _ hi => absurd hi (by omega)⟩

/-- **C10 and C16 for slices of maps.**  A field is a slice of maps, and the document has an array for
it.  When decoding reports success, the slice holds one map per member of the array, or it ends at the
first object that has a value that is not one of the type: in its place is the map the storage had
there, with the members in front of the bad one put into it, or nil.  The members of the array after
it are ignored. -/
theorem C16_cut_maps {n : Nat} {doc : JV} {l : List JV} {fd : FieldDecl} {old new : GoVal} {elt val : TExpr}
    (h : FieldAfter Γ n doc fd old new) (hn : fd.tags.jsonName ≠ str "-") (hn' : fd.tags.jsonName ≠ [])
    (ht : Is Γ fd.typ (.slice elt)) (he : Is Γ elt (.map val)) (hke : KeepsErrors Γ (pointee val))
    (hw : doc.get fd.tags.jsonName = some (.arr l)) :
    ∃ z cells es, ZeroOf Γ elt z ∧ Storage old l.length z cells ∧ new = .slice es (cells.drop es.length) ∧
      ((es.length = l.length ∧ ∀ (i : Nat) (a : JV) (c w : GoVal), l[i]? = some a → cells[i]? = some c → es[i]? = some w → MapPlace Γ elt a c w) ∨
       (∃ k kvs c c', es.length = k + 1 ∧ l[k]? = some (.obj kvs) ∧ cells[k]? = some c ∧ es[k]? = some c' ∧ MapCut Γ val kvs c c' ∧
          ∀ (i : Nat) (a : JV) (c w : GoVal), i < k → l[i]? = some a → cells[i]? = some c → es[i]? = some w → MapPlace Γ elt a c w)) := by
  obtain ⟨strict, fields, gs, gs', i, hd, hi, ho, hnew, hf⟩ := h
  obtain ⟨gs1, gs1', k, f, g, g', e1, e2, h4, h5, hgen, hstep, _⟩ := fills_field hd hf hi
  cases e1; cases e2
  rw [ho] at h4; cases h4
  rw [hnew] at h5; cases h5
  cases f with
  | none => exact absurd (genFieldFill_none hgen) hn
  | some f =>
    have hl : Looks fd.tags.jsonName doc (.arr l) := Or.inr ⟨hn', hw⟩
    obtain ⟨json, x, hx, hpl, hst, hmx⟩ := maps_field hgen he ht
    simp only [stepField] at hstep
    rw [runField_looks hgen hl (by simp)] at hstep
    obtain ⟨tv, h6, h7⟩ := Out.bind_eq_ok.1 hstep
    rw [hx] at h6
    simp only [runExtr, JV.getArr] at h6
    obtain ⟨z, hz, h8⟩ := Out.bind_eq_ok.1 h6
    obtain ⟨⟨fresh, cells⟩, hc, h9⟩ := Out.bind_eq_ok.1 h8
    obtain ⟨⟨stop, m, cells'⟩, hs, h10⟩ := Out.bind_eq_ok.1 h9
    have hdecl : x.declaresErr = true := by
      obtain ⟨_, _, _, _, _, _, _, _, _, rfl⟩ := hpl.plan
      rfl
    have main : ∀ (hne : ∀ e, stop ≠ .ret e) (fld' : GoVal), tv = .done (.ok (mkSlice m cells')) fld' →
        ∃ es, CutMaps Γ elt val l cells es ∧ new = .slice es (cells.drop es.length) := by
      rintro hne fld' rfl
      obtain ⟨es, h11, rfl, rfl⟩ := maps_loop he hke hpl hs hne
      simp only [hst, hmx, Option.bind_none] at h7
      obtain ⟨w', h12, h13⟩ := Out.bind_eq_ok.1 h7
      cases h13
      have := convT_is ht (by simp) (by simp) (by simp) h12
      have hm : mkSlice (0 + es.length) (es ++ cells.drop es.length) = .slice es (cells.drop es.length) := by simp [mkSlice]
      rw [this, hm]
      exact ⟨es, h11, rfl⟩
    have fin : ∃ es, CutMaps Γ elt val l cells es ∧ new = .slice es (cells.drop es.length) := by
      cases stop with
      | fin => simp only [Out.pure_eq, Out.ok.injEq] at h10; exact main (by simp) _ h10.symm
      | brk e =>
        simp only [hdecl, if_true, Out.pure_eq, Out.ok.injEq] at h10
        exact main (by simp) _ h10.symm
      | ret e =>
        simp only [Out.pure_eq, Out.ok.injEq] at h10
        subst h10
        simp at h7
    obtain ⟨es, h11, rfl⟩ := fin
    exact ⟨z, cells, es, ⟨_, hz⟩, sliceCells_storage hc, rfl, cutMaps_elements h11⟩

end
namespace Examples
open Sample
attribute [local instance] Sample.ext

set_option maxRecDepth 200000 in
/-- **Members of a refused object stay in the map.**  {"l":[{"b":2},{"a":3,"c":"x","d":4}]} is decoded into a variable whose
slice has the maps {"z":1} and {"y":5}.  No error is reported; the maps are {"z":1,"b":2} and {"y":5,"a":3}. -/
theorem C16_map_half_filled :
    Fills mapsEnv 0 (.obj [(str "l", .arr [.obj [(str "b", .num (str "2"))],
        .obj [(str "a", .num (str "3")), (str "c", .str (str "x")), (str "d", .num (str "4"))]])])
      (.struct [.slice [.map [(str "z", .int 1)], .map [(str "y", .int 5)]] []]) none
      (.struct [.slice [.map [(str "z", .int 1), (str "b", .int 2)], .map [(str "y", .int 5), (str "a", .int 3)]] []]) :=
  ⟨5, rfl⟩

/-- hypotheses of `C16_cut_maps` -/
example : FieldAfter mapsEnv 0 (.obj [(str "l", .arr [.obj [(str "b", .num (str "2"))],
        .obj [(str "a", .num (str "3")), (str "c", .str (str "x")), (str "d", .num (str "4"))]])]) ⟨.slice (.map (.prim .int8)), tag "l"⟩
      (.slice [.map [(str "z", .int 1)], .map [(str "y", .int 5)]] [])
      (.slice [.map [(str "z", .int 1), (str "b", .int 2)], .map [(str "y", .int 5), (str "a", .int 3)]] []) ∧
    Is mapsEnv (.slice (.map (.prim .int8))) (.slice (.map (.prim .int8))) ∧ Is mapsEnv (.map (.prim .int8)) (.map (.prim .int8)) ∧
    KeepsErrors mapsEnv (pointee (.prim .int8)) :=
  ⟨⟨false, _, _, _, 0, rfl, rfl, rfl, rfl, C16_map_half_filled⟩, .self _, .self _, keepsErrors_prim (.self _)⟩

end Examples
end VJ
