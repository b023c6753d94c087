import Verif.Proof.HeapExtr
import Verif.Proof.HeapReset

/-!
# Decoding in memory and decoding trees: fields, types and packages
-/

namespace VJ

/-- Footprints of two things made one after the other are disjoint. -/
theorem nodup_after {h1 : Heap} {M N : List Loc} (hM : M.Nodup) (hN : N.Nodup) (h : ∀ l ∈ M, l < h1.size)
    (h' : ∀ l ∈ N, h1.size ≤ l) : (M ++ N).Nodup := by
  rw [List.nodup_append]
  refine ⟨hM, hN, fun a ha b hb e => ?_⟩
  subst e
  exact absurd (h a ha) (Nat.not_lt.mpr (h' a hb))

mutual
/-- Laying out a value takes new objects only, and no two parts share one. -/
theorem layOut_rep : ∀ (g : GoVal) (h : Heap),
    ∃ L, Rep (layOut g h).2 g (layOut g h).1 L ∧ L.Nodup ∧ (∀ l ∈ L, h.size ≤ l) ∧ MemGrows h (layOut g h).2
  | .int _, h | .float _, h | .bool _, h | .str _, h | .time _, h | .uuid _, h | .nil, h | .barr _, h =>
    ⟨[], by simp [layOut, Rep], by simp, by simp, MemGrows.refl h⟩
  | .ptr g, h => by
    obtain ⟨L, h1, h2, h3, h4⟩ := layOut_rep g h
    simp only [layOut]
    have hg := MemGrows.alloc (layOut g h).2 (.cells [(layOut g h).1])
    refine ⟨(layOut g h).2.size :: L, ?_, ?_, ?_, h4.trans hg⟩
    · simp only [Rep]
      exact ⟨_, _, L, rfl, objs_alloc_self, h1.grow hg, rfl⟩
    · rw [List.nodup_cons]
      exact ⟨fun hm => absurd (h1.lt _ hm) (Nat.lt_irrefl _), h2⟩
    · intro l hl
      rcases List.mem_cons.mp hl with rfl | hl
      · exact h4.1
      · exact h3 l hl
  | .bytes b, h => ⟨[h.size], (newBytes_rep b h).1, by simp, by simp, (newBytes_rep b h).2⟩
  | .slice es sp, h => by
    obtain ⟨L, h1, h2, h3, h4⟩ := layOutL_rep es h
    obtain ⟨K, k1, k2, k3, k4⟩ := layOutL_rep sp (layOutL es h).2
    simp only [layOut]
    have hg := MemGrows.alloc (layOutL sp (layOutL es h).2).2 (.cells ((layOutL es h).1 ++ (layOutL sp (layOutL es h).2).1))
    have e1 := h1.length
    have e2 := k1.length
    refine ⟨(layOutL sp (layOutL es h).2).2.size :: (L ++ K), ?_, ?_, ?_, (h4.trans k4).trans hg⟩
    · simp only [Rep]
      refine ⟨_, [], (layOutL es h).1, (layOutL sp (layOutL es h).2).1, [], L, K, ?_, ?_, (h1.grow k4).grow hg, k1.grow hg, rfl⟩
      · rw [e1, e2]; rfl
      · rw [objs_alloc_self]; simp
    · rw [List.nodup_cons]
      refine ⟨fun hm => ?_, nodup_after h2 k2 h1.lt k3⟩
      rcases List.mem_append.mp hm with hm | hm
      · exact absurd (h1.lt _ hm) (Nat.not_lt.mpr k4.1)
      · exact absurd (k1.lt _ hm) (Nat.lt_irrefl _)
    · intro l hl
      rcases List.mem_cons.mp hl with rfl | hl
      · exact (h4.trans k4).1
      · rcases List.mem_append.mp hl with hl | hl
        · exact h3 l hl
        · exact Nat.le_trans h4.1 (k3 l hl)
  | .arr es, h => by
    obtain ⟨L, h1, h2, h3, h4⟩ := layOutL_rep es h
    simp only [layOut]
    exact ⟨L, by simp only [Rep]; exact ⟨_, rfl, h1⟩, h2, h3, h4⟩
  | .struct es, h => by
    obtain ⟨L, h1, h2, h3, h4⟩ := layOutL_rep es h
    simp only [layOut]
    exact ⟨L, by simp only [Rep]; exact ⟨_, rfl, h1⟩, h2, h3, h4⟩
  | .map kvs, h => by
    obtain ⟨L, h1, h2, h3, h4⟩ := layOutKV_rep kvs h
    simp only [layOut]
    have hg := MemGrows.alloc (layOutKV kvs h).2 (.map (layOutKV kvs h).1)
    refine ⟨(layOutKV kvs h).2.size :: L, ?_, ?_, ?_, h4.trans hg⟩
    · simp only [Rep]
      exact ⟨_, _, L, rfl, objs_alloc_self, h1.grow hg, rfl⟩
    · rw [List.nodup_cons]
      exact ⟨fun hm => absurd (h1.lt _ hm) (Nat.lt_irrefl _), h2⟩
    · intro l hl
      rcases List.mem_cons.mp hl with rfl | hl
      · exact h4.1
      · exact h3 l hl
theorem layOutL_rep : ∀ (gs : List GoVal) (h : Heap),
    ∃ L, RepL (layOutL gs h).2 gs (layOutL gs h).1 L ∧ L.Nodup ∧ (∀ l ∈ L, h.size ≤ l) ∧ MemGrows h (layOutL gs h).2
  | [], h => ⟨[], by simp [layOutL, RepL], by simp, by simp, MemGrows.refl h⟩
  | g :: gs, h => by
    obtain ⟨L, h1, h2, h3, h4⟩ := layOut_rep g h
    obtain ⟨K, k1, k2, k3, k4⟩ := layOutL_rep gs (layOut g h).2
    simp only [layOutL]
    refine ⟨L ++ K, ?_, nodup_after h2 k2 h1.lt k3, ?_, h4.trans k4⟩
    · simp only [RepL]
      exact ⟨_, _, L, K, rfl, h1.grow k4, k1, rfl⟩
    · intro l hl
      rcases List.mem_append.mp hl with hl | hl
      · exact h3 l hl
      · exact Nat.le_trans h4.1 (k3 l hl)
theorem layOutKV_rep : ∀ (gs : List (Str × GoVal)) (h : Heap),
    ∃ L, RepKV (layOutKV gs h).2 gs (layOutKV gs h).1 L ∧ L.Nodup ∧ (∀ l ∈ L, h.size ≤ l) ∧ MemGrows h (layOutKV gs h).2
  | [], h => ⟨[], by simp [layOutKV, RepKV], by simp, by simp, MemGrows.refl h⟩
  | (k, g) :: gs, h => by
    obtain ⟨L, h1, h2, h3, h4⟩ := layOut_rep g h
    obtain ⟨K, k1, k2, k3, k4⟩ := layOutKV_rep gs (layOut g h).2
    simp only [layOutKV]
    refine ⟨L ++ K, ?_, nodup_after h2 k2 h1.lt k3, ?_, h4.trans k4⟩
    · simp only [RepKV]
      exact ⟨_, _, L, K, rfl, h1.grow k4, k1, rfl⟩
    · intro l hl
      rcases List.mem_append.mp hl with hl | hl
      · exact h3 l hl
      · exact Nat.le_trans h4.1 (k3 l hl)
end

/-! ## Fields -/

theorem hstoreField_rel [Ext] {M : Nat → Methods} {H : Nat → HMethods} (hM : ∀ n, MSim (M n) (H n)) (st : Store)
    {h h1 : Heap} {p : Spot} {L N : List Loc} {val c : GoVal} {w : HVal} (hp : h.read p ≠ none) (hP : Post h p L c h1)
    (hr : Rep h1 val w N) (nd : N.Nodup) (np : p.loc ∉ N) (hN : ∀ l ∈ N, l ∈ L ∨ h.size ≤ l) :
    OutRel (fun c' h' => Post h p L c' h') (storeField M st val c) (hstoreField H st w p h1) := by
  cases st with
  | filled => exact hP
  | val t =>
    simp only [storeField, hstoreField]
    exact OutRel.bindR (hconvT_rel hM t hr) fun g' w' hr' => hP.store hr' nd np hN hp
  | ref t =>
    simp only [storeField, hstoreField]
    exact OutRel.bind (hconvT_rel hM t hr) fun g' w' hr' => hP.storeRef hr' nd np hN hp
  | named t =>
    simp only [storeField, hstoreField]
    exact OutRel.bind (hconvT_rel hM t hr) fun g' w' hr' => hP.storeRef hr' nd np hN hp
  | refNamed t =>
    simp only [storeField, hstoreField]
    refine OutRel.bind (hconvT_rel hM t hr) fun g' w' hr' => ?_
    obtain ⟨v, hv⟩ := Option.ne_none_iff_exists'.mp hp
    have hz : h.size ≤ h1.size := by obtain ⟨_, _, _, u⟩ := hP; exact u.size
    have hg := MemGrows.alloc h1 (.cells [w'])
    have hP1 := hP.later hv hg.1 hg.2
    refine hP1.storeRef (M := h1.size :: N) ?_ ?_ ?_ ?_ hp
    · simp only [Rep]
      exact ⟨_, w', N, rfl, objs_alloc_self, hr'.grow hg, rfl⟩
    · rw [List.nodup_cons]
      exact ⟨fun hm => absurd (hr'.lt _ hm) (Nat.lt_irrefl _), nd⟩
    · simp only [List.mem_cons, not_or]
      refine ⟨fun e => ?_, np⟩
      have := read_lt hv
      rw [e] at this
      exact absurd this (Nat.not_lt.mpr hz)
    · intro l hl
      rcases List.mem_cons.mp hl with rfl | hl
      · exact .inr hz
      · exact hN l hl

theorem hexceeds_eq [Ext] (m : MaxCheck) {h : Heap} {g : GoVal} {v : HVal} {L : List Loc} (hr : Rep h g v L) :
    hexceeds m v = exceeds m g := by
  cases g <;> simp only [Rep] at hr
  case ptr => obtain ⟨l, w, M', rfl, hr⟩ := hr; cases m <;> rfl
  case slice => obtain ⟨l, be, vs, ws, af, M', N', rfl, hr⟩ := hr; cases m <;> rfl
  case map => obtain ⟨l, ws, M', rfl, hr⟩ := hr; cases m <;> rfl
  case bytes => obtain ⟨l, be, ws, af, rfl, hr⟩ := hr; cases m <;> rfl
  case arr => obtain ⟨vs, rfl, hr⟩ := hr; cases m <;> rfl
  case struct => obtain ⟨vs, rfl, hr⟩ := hr; cases m <;> rfl
  all_goals (obtain ⟨rfl, rfl⟩ := hr; cases m <;> rfl)

theorem hrunField_rel [Ext] {M : Nat → Methods} {H : Nat → HMethods} (hM : ∀ n, MSim (M n) (H n)) (f : FieldFill) (v : JV)
    {h : Heap} {p : Spot} {g : GoVal} {L : List Loc} (ho : Owns h p g L) :
    OutRel (fun a b => a.1 = b.1 ∧ Post h p L a.2 b.2) (runField M f v g) (hrunField H f v p h) := by
  have hp := ho.read
  unfold runField hrunField
  dsimp only
  generalize (if f.json = [] then some v else v.get f.json) = x
  have hpres : ∀ w, OutRel (fun a b => a.1 = b.1 ∧ Post h p L a.2 b.2)
      (do
        match ← runExtr M f.x 0 w g with
        | .ret e fld' => return (some e, fld')
        | .done (.error e) fld' =>
          if f.check then return (some (newParsingError f.json e), fld') else .unsupp
        | .done (.ok val) fld' =>
          match f.max.bind (exceeds · val) with
          | some c => return (some (newParsingError f.json (.plain c)), fld')
          | none =>
            let r ← storeField M f.store val fld'
            return (none, r))
      (do
        let x ← hrunExtr H f.x 0 w p h
        match x.1 with
        | .ret e => return (some e, x.2)
        | .done (.error e) => if f.check then return (some (newParsingError f.json e), x.2) else .unsupp
        | .done (.ok val) =>
          match f.max.bind (hexceeds · val) with
          | some c => return (some (newParsingError f.json (.plain c)), x.2)
          | none =>
            let h ← hstoreField H f.store val p x.2
            return (none, h)) := by
    intro w
    refine OutRel.bind (hrunExtr_rel hM f.x 0 w p h g L ho) ?_
    rintro t ⟨t', h1⟩ ht
    match t, t', ht with
    | .ret _ _, .ret _, ht => obtain ⟨rfl, ht⟩ := ht; exact ⟨rfl, ht⟩
    | .done (.error e) _, .done (.error e'), ht =>
      obtain ⟨rfl, ht⟩ := ht
      dsimp only
      cases f.check with
      | true => exact ⟨rfl, ht⟩
      | false => trivial
    | .done (.ok val) _, .done (.ok w'), ht =>
      obtain ⟨hP, N, hr, nd, np, hN⟩ := ht
      dsimp only
      have he : f.max.bind (hexceeds · w') = f.max.bind (exceeds · val) := by
        cases f.max with
        | none => rfl
        | some m => exact hexceeds_eq m hr
      rw [he]
      cases f.max.bind (exceeds · val) with
      | some c => exact ⟨rfl, hP⟩
      | none =>
        refine OutRel.bind (hstoreField_rel hM f.store hp hP hr nd np hN) ?_
        intro c' h' hc
        exact ⟨rfl, hc⟩
  have habs : OutRel (fun a b => a.1 = b.1 ∧ Post h p L a.2 b.2)
      (match f.dflt with
        | .nothing => .ok (none, g)
        | .required => .ok (some (newParsingError f.json (.plain (.required f.json))), g)
        | .value d onlyAbsent =>
          if onlyAbsent && x.isSome then .ok (none, g) else .ok (none, d))
      (match f.dflt with
        | .nothing => .ok (none, h)
        | .required => .ok (some (newParsingError f.json (.plain (.required f.json))), h)
        | .value d onlyAbsent =>
          if onlyAbsent && x.isSome then .ok (none, h)
          else .ok (none, (layOut d h).2.write p (layOut d h).1)) := by
    cases f.dflt with
    | nothing => exact ⟨rfl, Post.refl ho⟩
    | required => exact ⟨rfl, Post.refl ho⟩
    | value d oa =>
      dsimp only
      split
      · exact ⟨rfl, Post.refl ho⟩
      · obtain ⟨N, h1, h2, h3, h4⟩ := layOut_rep d h
        obtain ⟨v, hv⟩ := Option.ne_none_iff_exists'.mp hp
        refine ⟨rfl, ((Post.refl ho).later hv h4.1 h4.2).store h1 h2 ?_ (fun l hl => .inr (h3 l hl)) hp⟩
        exact fun hm => absurd (read_lt hv) (Nat.not_lt.mpr (h3 _ hm))
  cases x with
  | none => exact habs
  | some w =>
    dsimp only
    cases hn : (f.nullable && w.isNull) with
    | true => exact habs
    | false => exact hpres w

theorem hrunFields_rel [Ext] {M : Nat → Methods} {H : Nat → HMethods} (hM : ∀ n, MSim (M n) (H n)) (v : JV)
    {p : Spot} {holds : Heap → List HVal → Prop} (R : Row p.part p.loc 0 holds) :
    ∀ (fs : List (Option FieldFill)) (i : Nat) (h : Heap) (pre ws : List HVal) (gs : List GoVal) (L : List Loc),
      pre.length = i → RowState holds p.loc h pre ws [] gs L →
      OutRel (fun a b => a.1 = b.1 ∧ ∃ ws' L',
          RowState holds p.loc b.2 pre ws' [] a.2 L' ∧ (∀ l ∈ L', l ∈ L ∨ h.size ≤ l) ∧ RowUpd h b.2 p.loc L)
        (runFields M v fs gs) (hrunFields H v p gs.length i fs h) := by
  intro fs
  induction fs with
  | nil =>
    intro i h pre ws gs L hi S
    cases gs with
    | nil => exact ⟨rfl, ws, L, S, fun l hl => .inl hl, Nat.le_refl _, fun _ _ _ _ => rfl⟩
    | cons g gs => trivial
  | cons f fs ih =>
    intro i h pre ws gs L hi S
    cases gs with
    | nil => cases f <;> trivial
    | cons g gs =>
      have hlen := S.rep.length
      cases ws with
      | nil => simp at hlen
      | cons w ws =>
        have hN := S.rep.lt
        have hnd := S.nodup
        obtain ⟨K, N, rfl, hown, hpost⟩ := S.round R (by simpa using hi)
        have hNlt : ∀ l ∈ N, l < h.size := fun l hl => hN l (by simp [hl])
        cases f with
        | none =>
          simp only [runFields, hrunFields, List.length_cons]
          obtain ⟨w', M', S1, hr, nd', out', hM', u1⟩ := hpost (Post.refl hown)
          refine OutRel.bindL (ih (i + 1) h (pre ++ [w']) ws gs N (by simp [hi]) S1) ?_
          rintro ⟨e, gs'⟩ ⟨e', h2⟩ ⟨he, ws', L', S2, hL', u2⟩
          dsimp only at he S2 u2
          subst he
          obtain ⟨S3, hL3, u3⟩ := RowState.cons hnd hNlt hr nd' out' hM' u1 S2 hL' u2
          exact ⟨rfl, _, _, S3, hL3, u3⟩
        | some f =>
          simp only [runFields, hrunFields, List.length_cons]
          refine OutRel.bind (hrunField_rel hM f v hown) ?_
          rintro ⟨e, g'⟩ ⟨e', h1⟩ ⟨he, hP⟩
          dsimp only at he hP
          subst he
          obtain ⟨w', M', S1, hr, nd', out', hM', u1⟩ := hpost hP
          cases e with
          | some e =>
            obtain ⟨S3, hL3, u3⟩ := RowState.last hnd hNlt hr nd' out' hM' u1 S1
            exact ⟨rfl, _, _, S3, hL3, u3⟩
          | none =>
            dsimp only
            refine OutRel.bindL (ih (i + 1) h1 (pre ++ [w']) ws gs N (by simp [hi]) S1) ?_
            rintro ⟨e, gs'⟩ ⟨e', h2⟩ ⟨he, ws', L', S2, hL', u2⟩
            dsimp only at he S2 u2
            subst he
            obtain ⟨S3, hL3, u3⟩ := RowState.cons hnd hNlt hr nd' out' hM' u1 S2 hL' u2
            exact ⟨rfl, _, _, S3, hL3, u3⟩

/-! ## Types -/

theorem hlistRound_rel [Ext] {M : Nat → Methods} {H : Nat → HMethods} (hM : ∀ n, MSim (M n) (H n)) (elt : TExpr) (x : Extr)
    (i : Nat) (a : JV) (p : Spot) (h : Heap) (g : GoVal) (L : List Loc) (ho : Owns h p g L) :
    OutRel (CellRel h p L) (listRound M elt x i a g) (hlistRound H elt x i a p h) := by
  have hp := ho.read
  obtain ⟨u, hu⟩ := Option.ne_none_iff_exists'.mp hp
  unfold listRound hlistRound
  refine OutRel.bind (hrunExtr_rel hM x i a _ _ _ _ (Owns.var (h := h) (g := .nil) (v := .nil) fun h => by simp [Rep])) ?_
  rintro t ⟨t', h1⟩ ht
  match t, t', ht with
  | .ret _ _, .ret _, ht =>
    obtain ⟨rfl, ht⟩ := ht
    obtain ⟨hz, hs⟩ := ht.var
    exact ⟨rfl, Post.fresh ho hz hs⟩
  | .done (.error e) _, .done (.error e'), ht =>
    obtain ⟨rfl, ht⟩ := ht
    obtain ⟨hz, hs⟩ := ht.var
    exact ⟨rfl, Post.fresh ho hz hs⟩
  | .done (.ok val) _, .done (.ok w'), ht =>
    obtain ⟨hP, N, hr, nd, np, hN⟩ := ht
    obtain ⟨hz, hs⟩ := hP.var
    have hge : ∀ l ∈ N, h.size ≤ l := fun l hl => by
      have := hN l hl; simp at this; omega
    refine OutRel.bind (hconvT_rel hM elt hr) ?_
    intro g' w2 hr2
    exact (Post.fresh ho hz hs).store hr2 nd (fun hm => absurd (read_lt hu) (Nat.not_lt.mpr (hge _ hm)))
      (fun l hl => .inr (hge l hl)) hp

theorem hrunFill_rel [Ext] {M : Nat → Methods} {H : Nat → HMethods} (hM : ∀ n, MSim (M n) (H n)) (ir : FillIR) (v : JV)
    {h : Heap} {p : Spot} {g : GoVal} {L : List Loc} (ho : Owns h p g L) :
    OutRel (fun a b => a.1 = b.1 ∧ Post h p L a.2 b.2) (runFill M ir v g) (hrunFill H ir v p h) := by
  have hp := ho.read
  have ho' := ho
  obtain ⟨fv, hread, hrep, nd, np⟩ := ho
  cases ir with
  | struct names strict fields =>
    cases g with
    | struct gs =>
      simp only [Rep] at hrep
      obtain ⟨vs, rfl, hr⟩ := hrep
      simp only [runFill, hrunFill, hread]
      cases validate names strict v with
      | some e => exact ⟨rfl, Post.refl ho'⟩
      | none =>
        dsimp only
        rw [hr.length]
        have S0 : RowState (fun k vs => k.read p = some (.struct vs) ∧ ∃ w, k.objs[p.loc]? = (h.write p w).objs[p.loc]?)
            p.loc h [] vs [] gs L :=
          ⟨by simpa using ⟨hread, _, (write_same hread).symm⟩, hr, nd, np⟩
        refine OutRel.bindL (hrunFields_rel hM v (Row.structParts hread) fields 0 h [] vs gs L rfl S0) ?_
        rintro ⟨e, gs'⟩ ⟨e', h'⟩ ⟨he, ws', L', S, hL', u⟩
        dsimp only at he S u
        subst he
        obtain ⟨hrow, hroot⟩ := S.row
        refine ⟨rfl, L', ⟨_, hrow, ?_, S.nodup, S.out⟩, hL', u.size, u.other, hroot⟩
        simp only [Rep]
        exact ⟨_, rfl, by simpa using S.rep⟩
    | ptr => simp only [Rep] at hrep; obtain ⟨_, _, _, rfl, _⟩ := hrep; simp [runFill, hrunFill, hread]
    | map => simp only [Rep] at hrep; obtain ⟨_, _, _, rfl, _⟩ := hrep; simp [runFill, hrunFill, hread]
    | slice => simp only [Rep] at hrep; obtain ⟨_, _, _, _, _, _, _, rfl, _⟩ := hrep; simp [runFill, hrunFill, hread]
    | arr => simp only [Rep] at hrep; obtain ⟨_, rfl, _⟩ := hrep; simp [runFill, hrunFill, hread]
    | bytes => simp only [Rep] at hrep; obtain ⟨_, _, _, _, rfl, _⟩ := hrep; simp [runFill, hrunFill, hread]
    | _ => simp only [Rep] at hrep; obtain ⟨rfl, _⟩ := hrep; simp [runFill, hrunFill, hread]
  | map star val x =>
    simp only [runFill, hrunFill]
    split
    · exact ⟨rfl, Post.refl ho'⟩
    · cases v.getObj with
      | error c => exact ⟨rfl, Post.refl ho'⟩
      | ok kvs =>
        dsimp only
        have hX : ∀ (v : JV) (h : Heap), OutRel (TVRel (h.alloc (.cells [.nil])) (.cell h.size 0) []) (runExtr M x 0 v .nil)
            (hrunExtr H x 0 v (.cell h.size 0) (h.alloc (.cells [.nil]))) :=
          fun v h => hrunExtr_rel hM x 0 v _ _ _ _ (Owns.var fun h => by simp [Rep])
        have hlt := read_lt hread
        have hne : h.size ≠ p.loc := Nat.ne_of_gt hlt
        have hg := MemGrows.alloc h (.map [])
        generalize hh0 : (h.alloc (.map [])).write p (.map h.size) = h0
        have hsz : h0.size = h.size + 1 := by rw [← hh0]; simp
        have S0 : MapState h0 h.size [] [] := by
          refine ⟨⟨[], ?_, by simp [RepKV]⟩, by simp, by simp⟩
          rw [← hh0, objs_write_ne hne, objs_alloc_self]
        refine OutRel.bindL (mapLoop_rel hM star val hX (h0 := h0) (by rw [hsz]; exact Nat.lt_succ_self _) [] kvs [] h0 [] S0 (by simp)
          ⟨Nat.le_refl _, fun _ _ _ _ => rfl⟩) ?_
        rintro ⟨e, m⟩ ⟨e', h'⟩ ⟨he, K', S, hK', u⟩
        dsimp only at he S u
        subst he
        obtain ⟨ws, hobj, hrk⟩ := S.rep
        have hroot : h'.objs[p.loc]? = h0.objs[p.loc]? :=
          u.other _ (by rw [hsz]; exact Nat.lt_succ_of_lt hlt) (by simp) hne.symm
        have hread1 : (h.alloc (.map [])).read p = some fv := by rw [read_congr (hg.2 _ hlt)]; exact hread
        have hge : ∀ a ∈ h.size :: K', h.size ≤ a := fun a ha => by
          rcases List.mem_cons.mp ha with rfl | ha
          · exact Nat.le_refl _
          · have := hK' a ha; simp at this; rw [hsz] at this; exact Nat.le_of_succ_le this
        refine ⟨rfl, h.size :: K', ⟨.map h.size, ?_, ?_, List.nodup_cons.mpr ⟨S.out, S.nodup⟩,
          fun hm => absurd hlt (Nat.not_lt.mpr (hge _ hm))⟩, fun a ha => .inr (hge a ha), ?_, ?_, .map h.size, ?_⟩
        · rw [read_congr hroot, ← hh0, read_write_self hread1]
        · simp only [Rep]; exact ⟨_, ws, K', rfl, hobj, hrk, rfl⟩
        · have := u.size; rw [hsz] at this; exact Nat.le_of_succ_le this
        · intro l hl _ hpl
          rw [u.other l (by omega) (by simp) (Nat.ne_of_lt hl), ← hh0, objs_write_ne hpl, hg.2 l hl]
        · rw [hroot, ← hh0, write_congr (hg.2 _ hlt)]
  | list len elt x =>
    cases len with
    | none =>
      simp only [runFill, hrunFill]
      split
      · exact ⟨rfl, Post.refl ho'⟩
      · cases v.getArr with
        | error c => exact ⟨rfl, Post.refl ho'⟩
        | ok l =>
          dsimp only
          refine OutRel.bind (hzeroT_rel hM elt) fun z z' hz => ?_
          have hlt := read_lt hread
          have hne : h.size ≠ p.loc := Nat.ne_of_gt hlt
          have hg := MemGrows.alloc h (.cells (List.replicate l.length z'))
          generalize hh0 : (h.alloc (.cells (List.replicate l.length z'))).write p (.slice h.size 0 l.length l.length) = h0
          have hsz : h0.size = h.size + 1 := by rw [← hh0]; simp
          have S0 : RowState (fun k vs => k.objs[h.size]? = some (.cells vs)) h.size h0
              [] (List.replicate l.length z') [] (List.replicate l.length z) [] :=
            ⟨by rw [← hh0, objs_write_ne hne, objs_alloc_self]; simp, RepL.replicate (hz _) _, by simp, by simp⟩
          refine OutRel.bind (sliceLoop_rel (Row.cells0 h.size) (hlistRound_rel hM elt x) l.length l 0 h0 [] _ [] _ []
            rfl (by simp) S0) ?_
          rintro ⟨s, n, cs⟩ ⟨s', n', h'⟩ ⟨hs, hn, hle, ws', L', S, hlen, hL', u⟩
          dsimp only at hs hn hle S hlen u
          subst hs hn
          have hroot : h'.objs[p.loc]? = h0.objs[p.loc]? :=
          u.other _ (by rw [hsz]; exact Nat.lt_succ_of_lt hlt) (by simp) hne.symm
          have hread1 : (h.alloc (.cells (List.replicate l.length z'))).read p = some fv := by
            rw [read_congr (hg.2 _ hlt)]; exact hread
          have hge : ∀ a ∈ h.size :: L', h.size ≤ a := fun a ha => by
            rcases List.mem_cons.mp ha with rfl | ha
            · exact Nat.le_refl _
            · have := hL' a ha; simp at this; rw [hsz] at this; exact Nat.le_of_succ_le this
          have hlen' : cs.length = l.length := by simpa using hlen
          refine ⟨rfl, h.size :: L', ⟨.slice h.size 0 l.length l.length, ?_, ?_, List.nodup_cons.mpr ⟨S.out, S.nodup⟩,
            fun hm => absurd hlt (Nat.not_lt.mpr (hge _ hm))⟩, fun a ha => .inr (hge a ha), ?_, ?_, .slice h.size 0 l.length l.length, ?_⟩
          · rw [read_congr hroot, ← hh0, read_write_self hread1]
          · have := Rep.mkSlice (n := cs.length) S.row S.rep (Nat.le_refl _)
            rw [mkSlice, List.take_length, List.drop_length, hlen'] at this; exact this
          · have := u.size; rw [hsz] at this; exact Nat.le_of_succ_le this
          · intro a ha _ hpl
            rw [u.other a (by omega) (by simp) (Nat.ne_of_lt ha), ← hh0, objs_write_ne hpl, hg.2 a ha]
          · rw [hroot, ← hh0, write_congr (hg.2 _ hlt)]
    | some n =>
      simp only [runFill, hrunFill]
      split
      · exact ⟨rfl, Post.refl ho'⟩
      · cases v.getArr with
        | error c => exact ⟨rfl, Post.refl ho'⟩
        | ok l =>
          dsimp only
          split
          · exact ⟨rfl, Post.refl ho'⟩
          · rw [hread]
            cases g with
            | arr gs =>
              simp only [Rep] at hrep
              obtain ⟨vs, rfl, hr⟩ := hrep
              dsimp only
              rw [hr.length]
              have S0 : RowState (fun k vs => k.read p = some (.arr vs) ∧ ∃ w, k.objs[p.loc]? = (h.write p w).objs[p.loc]?)
                  p.loc h [] vs [] gs L :=
                ⟨by simpa using ⟨hread, _, (write_same hread).symm⟩, hr, nd, np⟩
              refine OutRel.bind (sliceLoop_rel (Row.arrParts hread) (hlistRound_rel hM elt x) gs.length l 0 h [] vs [] gs L
                rfl (by simp) S0) ?_
              rintro ⟨s, n, cs⟩ ⟨s', n', h'⟩ ⟨hs, hn, hle, ws', L', S, hlen, hL', u⟩
              dsimp only at hs hn hle S hlen u
              subst hs hn
              obtain ⟨hrow, hroot⟩ := S.row
              refine ⟨rfl, L', ⟨_, hrow, ?_, S.nodup, S.out⟩, hL', u.size, u.other, hroot⟩
              simp only [Rep]
              exact ⟨_, rfl, by simpa using S.rep⟩
            | ptr => simp only [Rep] at hrep; obtain ⟨_, _, _, rfl, _⟩ := hrep; trivial
            | map => simp only [Rep] at hrep; obtain ⟨_, _, _, rfl, _⟩ := hrep; trivial
            | slice => simp only [Rep] at hrep; obtain ⟨_, _, _, _, _, _, _, rfl, _⟩ := hrep; trivial
            | struct => simp only [Rep] at hrep; obtain ⟨_, rfl, _⟩ := hrep; trivial
            | bytes => simp only [Rep] at hrep; obtain ⟨_, _, _, _, rfl, _⟩ := hrep; trivial
            | _ => simp only [Rep] at hrep; obtain ⟨rfl, _⟩ := hrep; trivial
  | bytes len =>
    simp only [runFill, hrunFill, hread]
    refine OutRel.bindR (hbytesFill_rel len v hrep) ?_
    rintro ⟨e, d⟩ ⟨e', d', h'⟩ ⟨he, hd⟩
    dsimp only at he hd
    subst he
    refine ⟨rfl, ?_⟩
    rcases hd with ⟨rfl, hd⟩ | ⟨M', hr, nd', hM', hg⟩
    · cases hd
      exact (Post.refl ho').store hrep nd np (fun l hl => .inl hl) hp
    · exact (Post.fresh ho' hg.1 hg.2).store hr nd' (fun hm => absurd (read_lt hread) (Nat.not_lt.mpr (hM' _ hm)))
        (fun l hl => .inr (hM' l hl)) hp
  | transit t x =>
    simp only [runFill, hrunFill]
    refine OutRel.bind (hrunExtr_rel hM x 0 v p h g L ho') ?_
    rintro r ⟨r', h1⟩ ht
    match r, r', ht with
    | .ret _ _, .ret _, ht => obtain ⟨rfl, ht⟩ := ht; exact ⟨rfl, ht⟩
    | .done (.error e) _, .done (.error e'), ht => obtain ⟨rfl, ht⟩ := ht; exact ⟨rfl, ht⟩
    | .done (.ok val) _, .done (.ok w'), ht =>
      obtain ⟨hP, N, hr, nd, np, hN⟩ := ht
      refine OutRel.bind (hconvT_rel hM t hr) ?_
      intro g' w2 hr2
      exact ⟨rfl, hP.store hr2 nd np hN hp⟩

theorem hzeroFields_rel {M : Nat → Methods} {H : Nat → HMethods} (hM : ∀ n, MSim (M n) (H n)) :
    ∀ fds : List FieldDecl, OutRel (fun g v => ∀ h, RepL h g v []) (zeroFields M fds) (hzeroFields H fds)
  | [] => by intro h; simp [RepL]
  | fd :: fds => by
    unfold zeroFields hzeroFields
    refine OutRel.bind (hzeroT_rel hM fd.typ) fun z z' hz => ?_
    refine OutRel.bind (hzeroFields_rel hM fds) fun zs zs' hzs => ?_
    intro h
    simp only [RepL]
    exact ⟨_, _, [], [], rfl, hz h, hzs h, rfl⟩

/-- The methods of every type of a package in memory do what they do on trees. -/
theorem hmethods_sim [Ext] {Γ : Env} {X : Nat → HMethods} (hX : ∀ n, MSim (Γ.ext n) (X n)) :
    ∀ k n, MSim (Γ.methods k n) (Γ.hmethods X k n) := by
  intro k
  induction k with
  | zero => intro n; exact ⟨trivial, fun _ => trivial, fun _ _ => trivial, fun _ _ => rfl, fun _ _ => rfl, fun _ => rfl, fun _ => trivial⟩
  | succ k ih =>
    intro n
    unfold Env.methods Env.hmethods
    cases Γ.decl n with
    | none => exact hX n
    | some d =>
      dsimp only
      refine ⟨?_, ?_, ?_, ?_, ?_, ?_, ?_⟩
      · cases d with
        | struct strict fields =>
          refine OutRel.bind (hzeroFields_rel ih fields) fun zs zs' hzs => ?_
          intro h
          simp only [Rep]
          exact ⟨_, rfl, hzs h⟩
        | «alias» t => exact hzeroT_rel ih t
      · intro h g v L hr
        cases d with
        | struct strict fields => exact hr
        | «alias» t => exact hconvT_rel ih t hr
      · intro h p g L v ho
        unfold declMethods hdeclMethods
        dsimp only
        cases genFill Γ k d with
        | ok ir => exact hrunFill_rel ih ir v ho
        | panic => trivial
        | loop => trivial
        | unsupp => trivial
      · intro h g v L hr w
        unfold declMethods hdeclMethods
        dsimp only
        cases genMarshal Γ d with
        | ok ir => exact hrunMarshal_eq ih ir hr w
        | _ => rfl
      · intro h w
        unfold declMethods hdeclMethods
        dsimp only
        cases genMarshal Γ d with
        | ok ir => exact hrunMarshal_nil (H := Γ.hmethods X k) (M := Γ.methods k) (h := h) ir w
        | _ => rfl
      · intro h g v L hr
        unfold declMethods hdeclMethods
        dsimp only
        cases genZero Γ k d with
        | ok ir => exact hrunZero_eq ih ir hr
        | _ => rfl
      · intro h p g L ho
        unfold declMethods hdeclMethods
        dsimp only
        cases genResetDecl Γ k d with
        | ok ir => exact hrunResetDecl_rel ih ir ho
        | _ => trivial

end VJ
