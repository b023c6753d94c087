import Verif.Proof.HeapFill

/-!
# Every template, field and method in memory does what it does on trees
-/

namespace VJ

theorem RepL.append {h : Heap} : ∀ {gs : List GoVal} {vs ws : List HVal} {ks : List GoVal} {L M : List Loc},
    RepL h gs vs L → RepL h ks ws M → RepL h (gs ++ ks) (vs ++ ws) (L ++ M)
  | [], vs, ws, ks, L, M, h1, h2 => by
    simp only [RepL] at h1
    obtain ⟨rfl, rfl⟩ := h1
    simpa using h2
  | g :: gs, vs, ws, ks, L, M, h1, h2 => by
    simp only [RepL] at h1
    obtain ⟨v, vs', M', N', rfl, h3, h4, rfl⟩ := h1
    simp only [List.cons_append, RepL]
    exact ⟨v, vs' ++ ws, M', N' ++ M, rfl, h3, RepL.append h4 h2, by simp⟩

theorem RepL.split {h : Heap} : ∀ (n : Nat) {gs : List GoVal} {vs : List HVal} {L : List Loc}, RepL h gs vs L →
    ∃ M N, L = M ++ N ∧ RepL h (gs.take n) (vs.take n) M ∧ RepL h (gs.drop n) (vs.drop n) N
  | 0, gs, vs, L, h1 => ⟨[], L, rfl, by simp [RepL], by simpa using h1⟩
  | n + 1, [], vs, L, h1 => by
    simp only [RepL] at h1
    obtain ⟨rfl, rfl⟩ := h1
    exact ⟨[], [], rfl, by simp [RepL], by simp [RepL]⟩
  | n + 1, g :: gs, vs, L, h1 => by
    simp only [RepL] at h1
    obtain ⟨v, vs', M', N', rfl, h3, h4, rfl⟩ := h1
    obtain ⟨M, N, rfl, h5, h6⟩ := RepL.split n h4
    refine ⟨M' ++ M, N, by simp, ?_, by simpa using h6⟩
    simp only [List.take_succ_cons, RepL]
    exact ⟨v, _, M', M, rfl, h3, h5, rfl⟩

/-- A slice of the cells of an array. -/
theorem Rep.mkSlice {h : Heap} {a n : Nat} {before ws after : List HVal} {gs : List GoVal} {L : List Loc}
    (ho : h.objs[a]? = some (.cells (before ++ ws ++ after))) (hr : RepL h gs ws L) (hn : n ≤ gs.length) :
    Rep h (mkSlice n gs) (.slice a before.length n gs.length) (a :: L) := by
  obtain ⟨M, N, rfl, h1, h2⟩ := hr.split n
  simp only [VJ.mkSlice, Rep]
  refine ⟨a, before, ws.take n, ws.drop n, after, M, N, ?_, ?_, h1, h2, rfl⟩
  · have h3 : min n gs.length = n := Nat.min_eq_left hn
    simp [h3]; omega
  · simpa using ho

/-- The cells of a new array. -/
theorem freshCells {h : Heap} {z : GoVal} {z' : HVal} (hz : ∀ h, Rep h z z' []) (n : Nat) :
    RowState (fun k vs => k.objs[h.size]? = some (.cells vs)) h.size (h.alloc (.cells (List.replicate n z')))
      [] (List.replicate n z') [] (List.replicate n z) [] :=
  ⟨by simp, RepL.replicate (hz _) n, by simp, by simp⟩

theorem hbytesFill_rel (len : Option Nat) (v : JV) {h : Heap} {d : GoVal} {d' : HVal} {L : List Loc} (hr : Rep h d d' L) :
    OutRel (fun a b => a.1 = b.1 ∧ ((a.2 = d ∧ b.2 = (d', h)) ∨
        ∃ M, Rep b.2.2 a.2 b.2.1 M ∧ M.Nodup ∧ (∀ l ∈ M, h.size ≤ l) ∧ MemGrows h b.2.2))
      (bytesFill len v d) (hbytesFill len v d' h) := by
  have made : ∀ b, ∃ M, Rep (newBytes b h).2 (.bytes b) (newBytes b h).1 M ∧ M.Nodup ∧ (∀ l ∈ M, h.size ≤ l) ∧
      MemGrows h (newBytes b h).2 := fun b => ⟨_, (newBytes_rep b h).1, by simp, by simp, (newBytes_rep b h).2⟩
  have same : ∀ b, ∃ M, Rep h (.barr b) (.barr b) M ∧ M.Nodup ∧ (∀ l ∈ M, h.size ≤ l) ∧ MemGrows h h :=
    fun b => ⟨[], by simp [Rep], by simp, by simp, MemGrows.refl h⟩
  unfold bytesFill hbytesFill
  split
  · exact ⟨rfl, .inl ⟨rfl, rfl⟩⟩
  · cases v.getStr with
    | error c => exact ⟨rfl, .inl ⟨rfl, rfl⟩⟩
    | ok s =>
      cases len with
      | none =>
        dsimp only
        split
        · exact ⟨rfl, .inr (made _)⟩
        · exact ⟨rfl, .inr (made _)⟩
      | some n =>
        dsimp only
        cases d <;> simp only [Rep] at hr
        case barr =>
          obtain ⟨rfl, rfl⟩ := hr
          dsimp only
          split
          · trivial
          · split
            · exact ⟨rfl, .inr (same _)⟩
            · split
              · exact ⟨rfl, .inr (same _)⟩
              · exact ⟨rfl, .inr (same _)⟩
        case ptr => obtain ⟨l, w, M', rfl, hr⟩ := hr; trivial
        case slice => obtain ⟨l, be, vs, ws, af, M', N', rfl, hr⟩ := hr; trivial
        case map => obtain ⟨l, ws, M', rfl, hr⟩ := hr; trivial
        case bytes => obtain ⟨l, be, ws, af, rfl, hr⟩ := hr; trivial
        case arr => obtain ⟨vs, rfl, hr⟩ := hr; trivial
        case struct => obtain ⟨vs, rfl, hr⟩ := hr; trivial
        all_goals (obtain ⟨rfl, rfl⟩ := hr; trivial)

/-- A template that leaves memory alone and yields a value without references. -/
theorem TVRel.plain {h : Heap} {p : Spot} {g : GoVal} {L : List Loc} (ho : Owns h p g L) {val : GoVal} {w : HVal}
    (hr : Rep h val w []) : TVRel h p L (.done (.ok val) g) (.done (.ok w), h) :=
  ⟨Post.refl ho, [], hr, by simp, by simp, by simp⟩

theorem TVRel.fail {h : Heap} {p : Spot} {g : GoVal} {L : List Loc} (ho : Owns h p g L) (e : Err) :
    TVRel h p L (.done (.error e) g) (.done (.error e), h) := ⟨rfl, Post.refl ho⟩

theorem TVRel.ret' {h : Heap} {p : Spot} {g : GoVal} {L : List Loc} (ho : Owns h p g L) (e : Err) :
    TVRel h p L (.ret e g) (.ret e, h) := ⟨rfl, Post.refl ho⟩

/-- Assigning the address of a new variable to `p`. -/
theorem Post.storeRef {h h1 : Heap} {p : Spot} {g val : GoVal} {w : HVal} {L M : List Loc}
    (p1 : Post h p L g h1) (hr : Rep h1 val w M) (nd : M.Nodup) (np : p.loc ∉ M)
    (hM : ∀ l ∈ M, l ∈ L ∨ h.size ≤ l) (hp : h.read p ≠ none) :
    Post h p L (.ptr val) ((h1.alloc (.cells [w])).write p (.ptr h1.size)) := by
  obtain ⟨v, hv⟩ := Option.ne_none_iff_exists'.mp hp
  have hz : h.size ≤ h1.size := by obtain ⟨_, _, _, u⟩ := p1; exact u.size
  have hs : ∀ l, l < h1.size → (h1.alloc (.cells [w])).objs[l]? = h1.objs[l]? := fun l hl => objs_alloc_lt hl
  have p2 := p1.later hv (h2 := h1.alloc (.cells [w])) (by simp) hs
  refine p2.store (M := h1.size :: M) ?_ ?_ ?_ ?_ hp
  · simp only [Rep]
    exact ⟨_, w, M, rfl, by simp, hr.frame fun x hx => hs x (hr.lt x hx), rfl⟩
  · rw [List.nodup_cons]
    exact ⟨fun hm => absurd (hr.lt _ hm) (Nat.lt_irrefl _), nd⟩
  · simp only [List.mem_cons, not_or]
    refine ⟨fun e => ?_, np⟩
    have := read_lt hv
    rw [e] at this
    exact absurd this (Nat.not_lt.mpr hz)
  · intro l hl
    rcases List.mem_cons.mp hl with rfl | hl
    · exact .inr hz
    · exact hM l hl

theorem hstoreElem_rel [Ext] {M : Nat → Methods} {H : Nat → HMethods} (hM : ∀ n, MSim (M n) (H n)) (st : ElemStore)
    {h h1 : Heap} {p : Spot} {L N : List Loc} {val c : GoVal} {w : HVal} (hp : h.read p ≠ none) (hP : Post h p L c h1)
    (hr : Rep h1 val w N) (nd : N.Nodup) (np : p.loc ∉ N) (hN : ∀ l ∈ N, l ∈ L ∨ h.size ≤ l) :
    OutRel (fun c' h' => Post h p L c' h') (storeElem M st val c) (hstoreElem H st w p h1) := by
  cases st with
  | filled => exact hP
  | val t =>
    simp only [storeElem, hstoreElem]
    exact OutRel.bindR (hconvT_rel hM t hr) fun g' w' hr' => hP.store hr' nd np hN hp
  | ref t =>
    simp only [storeElem, hstoreElem]
    exact OutRel.bind (hconvT_rel hM t hr) fun g' w' hr' => hP.storeRef hr' nd np hN hp

theorem helemRound_rel [Ext] {M : Nat → Methods} {H : Nat → HMethods} (hM : ∀ n, MSim (M n) (H n)) (nullable brk : Bool)
    (st : ElemStore) {x : Nat → JV → GoVal → Out TV} {hx : Nat → JV → Spot → Heap → Out (HTV × Heap)}
    (hX : ∀ i a p h g L, Owns h p g L → OutRel (TVRel h p L) (x i a g) (hx i a p h))
    (i : Nat) (a : JV) (p : Spot) (h : Heap) (g : GoVal) (L : List Loc) (ho : Owns h p g L) :
    OutRel (CellRel h p L) (elemRound M nullable brk st x i a g) (helemRound H nullable brk st hx i a p h) := by
  have hp : h.read p ≠ none := by obtain ⟨v, hv, -⟩ := ho; simp [hv]
  unfold elemRound helemRound
  split
  · exact (Post.refl ho).store (M := []) (by simp [Rep]) (by simp) (by simp) (by simp) hp
  · refine OutRel.bind (hX i a p h g L ho) ?_
    rintro t ⟨t', h1⟩ ht
    match t, t', ht with
    | .ret _ _, .ret _, ht => obtain ⟨rfl, ht⟩ := ht; exact ⟨rfl, ht⟩
    | .done (.error e) _, .done (.error e'), ht =>
      obtain ⟨rfl, ht⟩ := ht
      cases brk with
      | true => exact ⟨rfl, ht⟩
      | false => trivial
    | .done (.ok w) _, .done (.ok w'), ht =>
      obtain ⟨hP, N, hr, nd, np, hN⟩ := ht
      refine OutRel.bind (hstoreElem_rel hM st hp hP hr nd np hN) ?_
      intro c' h' hc
      exact hc

theorem Owns.read {h : Heap} {p : Spot} {g : GoVal} {L : List Loc} (ho : Owns h p g L) : h.read p ≠ none := by
  obtain ⟨v, hv, -⟩ := ho; simp [hv]

theorem Row.cells0 (l : Nat) :
    Row (.cell l) l 0 (fun h vs => h.objs[l]? = some (.cells vs)) := by
  have := Row.cells l 0
  simpa using this

theorem hrunExtr_rel [Ext] {M : Nat → Methods} {H : Nat → HMethods} (hM : ∀ n, MSim (M n) (H n)) :
    ∀ (x : Extr) (i : Nat) (v : JV) (p : Spot) (h : Heap) (g : GoVal) (L : List Loc), Owns h p g L →
      OutRel (TVRel h p L) (runExtr M x i v g) (hrunExtr H x i v p h) := by
  intro x
  induction x with
  | int =>
    intro i v p h g L ho
    unfold runExtr hrunExtr
    cases v.getInt with
    | error c => exact TVRel.fail ho _
    | ok n => exact TVRel.plain ho (by simp [Rep])
  | uint =>
    intro i v p h g L ho
    unfold runExtr hrunExtr
    cases v.getUint with
    | error c => exact TVRel.fail ho _
    | ok n => exact TVRel.plain ho (by simp [Rep])
  | float =>
    intro i v p h g L ho
    unfold runExtr hrunExtr
    cases v.getFloat with
    | error c => exact TVRel.fail ho _
    | ok n => exact TVRel.plain ho (by simp [Rep])
  | bool =>
    intro i v p h g L ho
    unfold runExtr hrunExtr
    cases v.getBool with
    | error c => exact TVRel.fail ho _
    | ok n => exact TVRel.plain ho (by simp [Rep])
  | strChecked path =>
    intro i v p h g L ho
    unfold runExtr hrunExtr
    cases v.getStr with
    | error c => exact TVRel.ret' ho _
    | ok n => exact TVRel.plain ho (by simp [Rep])
  | strUnchecked =>
    intro i v p h g L ho
    unfold runExtr hrunExtr
    cases v.getStr with
    | error c => exact TVRel.fail ho _
    | ok n => exact TVRel.plain ho (by simp [Rep])
  | time json layout =>
    intro i v p h g L ho
    unfold runExtr hrunExtr
    cases v.getStr with
    | error c => exact TVRel.ret' ho _
    | ok s =>
      cases layout with
      | none =>
        dsimp only
        cases parseDateTime s with
        | none => exact TVRel.fail ho _
        | some t => exact TVRel.plain ho (by simp [Rep])
      | some l =>
        dsimp only
        cases Ext.parseTime l s with
        | none => exact TVRel.fail ho _
        | some t => exact TVRel.plain ho (by simp [Rep])
  | uuid json =>
    intro i v p h g L ho
    unfold runExtr hrunExtr
    cases v.getStr with
    | error c => exact TVRel.ret' ho _
    | ok s =>
      dsimp only
      cases parseUUID s with
      | none => exact TVRel.fail ho _
      | some t => exact TVRel.plain ho (by simp [Rep])
  | nestedFresh t =>
    intro i v p h g L ho
    unfold runExtr hrunExtr
    refine OutRel.bind (hzeroT_rel hM t) fun z z' hz => ?_
    refine OutRel.bind (hfillT_rel hM t v (Owns.var hz)) ?_
    rintro ⟨e, w⟩ ⟨e', h'⟩ ⟨he, hp⟩
    obtain rfl : e = e' := he
    obtain ⟨h1, h2⟩ := hp.var
    cases e with
    | some e => exact ⟨rfl, Post.fresh ho h1 h2⟩
    | none =>
      obtain ⟨L', ⟨w', hr, hw, nd, np⟩, hL', u⟩ := hp
      dsimp only at hr hw ⊢
      rw [hr]
      have hge : ∀ l ∈ L', h.size ≤ l := fun l hl => by
        have := hL' l hl; simp at this; omega
      refine ⟨Post.fresh ho h1 h2, L', hw, nd, fun hm => ?_, fun l hl => .inr (hge l hl)⟩
      obtain ⟨u, hu, -⟩ := ho
      exact absurd (read_lt hu) (Nat.not_lt.mpr (hge _ hm))
  | nestedInPlace t =>
    intro i v p h g L ho
    unfold runExtr hrunExtr
    refine OutRel.bind (hfillT_rel hM t v ho) ?_
    rintro ⟨e, w⟩ ⟨e', h'⟩ ⟨he, hp⟩
    obtain rfl : e = e' := he
    cases e with
    | some e => exact ⟨rfl, hp⟩
    | none =>
      obtain ⟨L', ⟨w', hr, hw, nd, np⟩, hL', u⟩ := hp
      dsimp only at hr hw ⊢
      rw [hr]
      exact ⟨⟨L', ⟨w', hr, hw, nd, np⟩, hL', u⟩, L', hw, nd, np, hL'⟩
  | bytes len =>
    intro i v p h g L ho
    unfold runExtr hrunExtr
    have hv : Rep h (bytesVar len) (hbytesVar len) [] := by
      cases len <;> simp [bytesVar, hbytesVar, Rep]
    refine OutRel.bind (hbytesFill_rel len v hv) ?_
    rintro ⟨e, d⟩ ⟨e', d', h'⟩ ⟨he, hd⟩
    obtain rfl : e = e' := he
    have hd' : ∃ M, Rep h' d d' M ∧ M.Nodup ∧ (∀ l ∈ M, h.size ≤ l) ∧ MemGrows h h' := by
      rcases hd with ⟨hd1, hd2⟩ | hd
      · cases hd2; cases hd1
        exact ⟨[], hv, by simp, by simp, MemGrows.refl h⟩
      · exact hd
    obtain ⟨M', hr, nd, hM', hg⟩ := hd'
    have hpost : Post h p L g h' := Post.fresh ho hg.1 hg.2
    cases e with
    | some e => exact ⟨rfl, hpost⟩
    | none =>
      obtain ⟨fv, hread, -⟩ := ho
      exact ⟨hpost, M', hr, nd, fun hm => absurd (read_lt hread) (Nat.not_lt.mpr (hM' _ hm)), fun l hl => .inr (hM' l hl)⟩
  | slice json elt nullable x brk st ih =>
    intro i v p h g L ho
    unfold runExtr hrunExtr
    cases v.getArr with
    | error c => exact TVRel.ret' ho _
    | ok l =>
      dsimp only
      refine OutRel.bind (hzeroT_rel hM elt) fun z z' hz => ?_
      have ho' := ho
      obtain ⟨fv, hread, hrep, nd, np⟩ := ho
      rw [hread]
      dsimp only
      -- a new array
      have fresh : OutRel (TVRel h p L)
          (do
            let x_1 ← sliceLoop (elemRound M nullable brk st (runExtr M x)) 0 l (List.replicate l.length z)
            match x_1.1 with
            | .fin => return .done (.ok (mkSlice x_1.2.1 x_1.2.2)) g
            | .ret e => return .ret e g
            | .brk e =>
              if x.declaresErr then return .done (.ok (mkSlice x_1.2.1 x_1.2.2)) g
              else return .done (.error e) g)
          (do
            let x_1 ← hsliceLoop (helemRound H nullable brk st (hrunExtr H x)) (fun i => .cell h.size (0 + i)) l.length 0 l
              (h.alloc (.cells (List.replicate l.length z')))
            match x_1.1 with
            | .fin => return (.done (.ok (.slice h.size 0 x_1.2.1 l.length)), x_1.2.2)
            | .ret e => return (.ret e, x_1.2.2)
            | .brk e =>
              if x.declaresErr then return (.done (.ok (.slice h.size 0 x_1.2.1 l.length)), x_1.2.2)
              else return (.done (.error e), x_1.2.2)) := by
        refine OutRel.bind (sliceLoop_rel (Row.cells h.size 0) (helemRound_rel hM nullable brk st ih) l.length l 0 _ [] _ [] _ []
          rfl (by simp) (freshCells hz l.length)) ?_
        rintro ⟨s, n, cs⟩ ⟨s', n', h'⟩ ⟨hs, hn, hle, ws', L', S, hlen, hL', u⟩
        dsimp only at hs hn hle S hlen u
        subst hs hn
        have hz' : h.size ≤ h'.size := by have := u.size; simp at this; omega
        have hsame : ∀ a, a < h.size → h'.objs[a]? = h.objs[a]? := fun a ha => by
          rw [u.other a (by simp; omega) (by simp) (Nat.ne_of_lt ha), objs_alloc_lt ha]
        have hP : Post h p L g h' := Post.fresh ho' hz' hsame
        have hge : ∀ a ∈ h.size :: L', h.size ≤ a := fun a ha => by
          rcases List.mem_cons.mp ha with rfl | ha
          · exact Nat.le_refl _
          · have := hL' a ha; simp at this; omega
        have hval : Rep h' (mkSlice n cs) (.slice h.size 0 n l.length) (h.size :: L') := by
          have h3 : cs.length = l.length := by simpa using hlen
          have := Rep.mkSlice S.row S.rep (by omega : n ≤ cs.length)
          rw [h3] at this
          exact this
        have hfin : TVRel h p L (.done (.ok (mkSlice n cs)) g) (.done (.ok (.slice h.size 0 n l.length)), h') :=
          ⟨hP, _, hval, List.nodup_cons.mpr ⟨S.out, S.nodup⟩,
            fun hm => absurd (read_lt hread) (Nat.not_lt.mpr (hge _ hm)), fun a ha => .inr (hge a ha)⟩
        cases s with
        | fin => exact hfin
        | ret e => exact ⟨rfl, hP⟩
        | brk e =>
          dsimp only
          cases x.declaresErr with
          | true => exact hfin
          | false => exact ⟨rfl, hP⟩
      cases g with
      | nil =>
        simp only [Rep] at hrep
        obtain ⟨rfl, rfl⟩ := hrep
        exact fresh
      | slice es sp =>
        simp only [Rep] at hrep
        obtain ⟨a, be, vs, ws, af, K, N, rfl, hobj, hr1, hr2, rfl⟩ := hrep
        simp only [sliceCells, hsliceCells]
        by_cases hcap : es.length + sp.length < l.length
        · simp only [if_pos hcap]
          exact fresh
        · simp only [if_neg hcap, Out.ok_bind]
          rw [List.nodup_cons] at nd
          simp only [List.mem_cons, not_or] at np
          have S0 : RowState (fun k vs => k.objs[a]? = some (.cells vs)) a h be (vs ++ ws) af (es ++ sp) (K ++ N) :=
            ⟨hobj, hr1.append hr2, nd.2, nd.1⟩
          refine OutRel.bind (sliceLoop_rel (Row.cells a be.length) (helemRound_rel hM nullable brk st ih)
            (es.length + sp.length) l 0 h be _ af _ _ (by simp) (by simp) S0) ?_
          rintro ⟨s, n, cs⟩ ⟨s', n', h'⟩ ⟨hs, hn, hle, ws', L', S, hlen, hL', u⟩
          dsimp only at hs hn hle S hlen u
          subst hs hn
          have hlen' : cs.length = es.length + sp.length := by simpa using hlen
          have hroot : h'.objs[p.loc]? = h.objs[p.loc]? := u.other _ (read_lt hread) np.2 np.1
          have hval : ∀ m, m ≤ cs.length → Rep h' (mkSlice m cs) (.slice a be.length m (es.length + sp.length)) (a :: L') := by
            intro m hm
            have := Rep.mkSlice S.row S.rep hm
            rw [hlen'] at this
            exact this
          have hnd : (a :: L').Nodup := List.nodup_cons.mpr ⟨S.out, S.nodup⟩
          have hnp : p.loc ∉ a :: L' := by
            simp only [List.mem_cons, not_or]
            refine ⟨np.1, fun hm => ?_⟩
            rcases hL' _ hm with hm | hm
            · exact np.2 hm
            · exact absurd (read_lt hread) (Nat.not_lt.mpr hm)
          have hsub : ∀ x ∈ a :: L', x ∈ a :: (K ++ N) ∨ h.size ≤ x := by
            intro x hx
            rcases List.mem_cons.mp hx with rfl | hx
            · exact .inl (by simp)
            · rcases hL' x hx with hx | hx
              · exact .inl (List.mem_cons_of_mem _ hx)
              · exact .inr hx
          have hP : Post h p (a :: (K ++ N)) (fieldAfter false (.slice es sp) cs) h' := by
            refine ⟨a :: L', ⟨_, by rw [read_congr hroot]; exact hread, hval es.length (by omega), hnd, hnp⟩, hsub, u.size, ?_, ?_⟩
            · intro x hx hn hp
              simp only [List.mem_cons, not_or] at hn
              exact u.other x hx hn.2 hn.1
            · exact ⟨_, by rw [hroot, write_same hread]⟩
          have hfin : TVRel h p (a :: (K ++ N)) (.done (.ok (mkSlice n cs)) (fieldAfter false (.slice es sp) cs))
              (.done (.ok (.slice a be.length n (es.length + sp.length))), h') :=
            ⟨hP, _, hval n (by omega), hnd, hnp, hsub⟩
          cases s with
          | fin => exact hfin
          | ret e => exact ⟨rfl, hP⟩
          | brk e =>
            dsimp only
            cases x.declaresErr with
            | true => exact hfin
            | false => exact ⟨rfl, hP⟩
      | ptr => simp only [Rep] at hrep; obtain ⟨_, _, _, rfl, _⟩ := hrep; trivial
      | map => simp only [Rep] at hrep; obtain ⟨_, _, _, rfl, _⟩ := hrep; trivial
      | arr => simp only [Rep] at hrep; obtain ⟨_, rfl, _⟩ := hrep; trivial
      | struct => simp only [Rep] at hrep; obtain ⟨_, rfl, _⟩ := hrep; trivial
      | bytes => simp only [Rep] at hrep; obtain ⟨_, _, _, _, rfl, _⟩ := hrep; trivial
      | _ => simp only [Rep] at hrep; obtain ⟨rfl, _⟩ := hrep; trivial
  | array json len elt x brk st ih =>
    intro i v p h g L ho
    unfold runExtr hrunExtr
    cases v.getArr with
    | error c => exact TVRel.ret' ho _
    | ok l =>
      dsimp only
      by_cases hl : l.length ≠ len
      · simp only [if_pos hl]; exact TVRel.ret' ho _
      · simp only [if_neg hl]
        refine OutRel.bind (hzeroT_rel hM elt) fun z z' hz => ?_
        refine OutRel.bind (sliceLoop_rel (Row.cells0 h.size) (helemRound_rel hM false brk st ih) len l 0 _ [] _ [] _ []
          rfl (by simp) (freshCells hz len)) ?_
        rintro ⟨s, n, cs⟩ ⟨s', n', h'⟩ ⟨hs, hn, hle, ws', L', S, hlen, hL', u⟩
        dsimp only at hs hn hle S hlen u
        subst hs hn
        have hz' : h.size ≤ h'.size := by have := u.size; simp at this; omega
        have hsame : ∀ a, a < h.size → h'.objs[a]? = h.objs[a]? := fun a ha => by
          rw [u.other a (by simp; omega) (by simp) (Nat.ne_of_lt ha), objs_alloc_lt ha]
        have hP : Post h p L g h' := Post.fresh ho hz' hsame
        have hge : ∀ a ∈ L', h.size ≤ a := fun a ha => by
          have := hL' a ha; simp at this; omega
        have hobj : h'.objs[h.size]? = some (.cells ws') := by simpa using S.row
        have hfin : TVRel h p L (.done (.ok (.arr cs)) g) (.done (.ok (.arr ws')), h') := by
          refine ⟨hP, L', ?_, S.nodup, fun hm => ?_, fun a ha => .inr (hge a ha)⟩
          · simp only [Rep]; exact ⟨ws', rfl, S.rep⟩
          · obtain ⟨u, hu, -⟩ := ho
            exact absurd (read_lt hu) (Nat.not_lt.mpr (hge _ hm))
        simp only [hobj, Out.ok_bind]
        cases s with
        | fin => exact hfin
        | ret e => exact ⟨rfl, hP⟩
        | brk e =>
          dsimp only
          cases x.declaresErr with
          | true => exact hfin
          | false => exact ⟨rfl, hP⟩
  | map json star val x ih =>
    intro i v p h g L ho
    unfold runExtr hrunExtr
    cases v.getObj with
    | error c => exact TVRel.ret' ho _
    | ok kvs =>
      dsimp only
      have hX : ∀ (v : JV) (h : Heap), OutRel (TVRel (h.alloc (.cells [.nil])) (.cell h.size 0) []) (runExtr M x 0 v .nil)
          (hrunExtr H x 0 v (.cell h.size 0) (h.alloc (.cells [.nil]))) :=
        fun v h => ih 0 v _ _ _ _ (Owns.var fun h => by simp [Rep])
      have ho' := ho
      obtain ⟨fv, hread, hrep, nd, np⟩ := ho
      rw [hread]
      cases g with
      | nil =>
        simp only [Rep] at hrep
        obtain ⟨rfl, rfl⟩ := hrep
        simp only [Out.ok_bind]
        have S0 : MapState (h.alloc (.map [])) h.size [] [] := ⟨⟨[], by simp, by simp [RepKV]⟩, by simp, by simp⟩
        refine OutRel.bind (mapLoop_rel hM star val hX (h0 := h.alloc (.map [])) (by simp) [] kvs [] _ [] S0 (by simp)
          ⟨Nat.le_refl _, fun _ _ _ _ => rfl⟩) ?_
        rintro ⟨e, m⟩ ⟨e', h'⟩ ⟨he, K', S, hK', u⟩
        dsimp only at he S u
        subst he
        have hz' : h.size ≤ h'.size := by have := u.size; simp at this; omega
        have hsame : ∀ a, a < h.size → h'.objs[a]? = h.objs[a]? := fun a ha => by
          rw [u.other a (by simp; omega) (by simp) (Nat.ne_of_lt ha), objs_alloc_lt ha]
        have hP : Post h p [] .nil h' := Post.fresh ho' hz' hsame
        have hge : ∀ a ∈ h.size :: K', h.size ≤ a := fun a ha => by
          rcases List.mem_cons.mp ha with rfl | ha
          · exact Nat.le_refl _
          · have := hK' a ha; simp at this; omega
        obtain ⟨ws, hobj, hrk⟩ := S.rep
        cases e with
        | none =>
          refine ⟨by simpa using hP, h.size :: K', ?_, List.nodup_cons.mpr ⟨S.out, S.nodup⟩,
            fun hm => absurd (read_lt hread) (Nat.not_lt.mpr (hge _ hm)), fun a ha => .inr (hge a ha)⟩
          simp only [Rep]
          exact ⟨_, ws, K', rfl, hobj, hrk, rfl⟩
        | some e => exact ⟨rfl, by simpa using hP⟩
      | map m0 =>
        simp only [Rep] at hrep
        obtain ⟨a, ws, K, rfl, hobj, hrk, rfl⟩ := hrep
        simp only [Out.ok_bind]
        rw [List.nodup_cons] at nd
        simp only [List.mem_cons, not_or] at np
        have S0 : MapState h a m0 K := ⟨⟨ws, hobj, hrk⟩, nd.2, nd.1⟩
        refine OutRel.bind (mapLoop_rel hM star val hX (h0 := h) (lt_size hobj) K kvs m0 h K S0 (fun x hx => .inl hx)
          ⟨Nat.le_refl _, fun _ _ _ _ => rfl⟩) ?_
        rintro ⟨e, m⟩ ⟨e', h'⟩ ⟨he, K', S, hK', u⟩
        dsimp only at he S u
        subst he
        have hroot : h'.objs[p.loc]? = h.objs[p.loc]? := u.other _ (read_lt hread) np.2 np.1
        obtain ⟨ws', hobj', hrk'⟩ := S.rep
        have hval : Rep h' (.map m) (.map a) (a :: K') := by
          simp only [Rep]; exact ⟨_, ws', K', rfl, hobj', hrk', rfl⟩
        have hnd : (a :: K').Nodup := List.nodup_cons.mpr ⟨S.out, S.nodup⟩
        have hnp : p.loc ∉ a :: K' := by
          simp only [List.mem_cons, not_or]
          refine ⟨np.1, fun hm => ?_⟩
          rcases hK' _ hm with hm | hm
          · exact np.2 hm
          · exact absurd (read_lt hread) (Nat.not_lt.mpr hm)
        have hsub : ∀ x ∈ a :: K', x ∈ a :: K ∨ h.size ≤ x := by
          intro x hx
          rcases List.mem_cons.mp hx with rfl | hx
          · exact .inl (by simp)
          · rcases hK' x hx with hx | hx
            · exact .inl (List.mem_cons_of_mem _ hx)
            · exact .inr hx
        have hP : Post h p (a :: K) (.map m) h' := by
          refine ⟨a :: K', ⟨_, by rw [read_congr hroot]; exact hread, hval, hnd, hnp⟩, hsub, u.size, ?_, ?_⟩
          · intro x hx hn hp
            simp only [List.mem_cons, not_or] at hn
            exact u.other x hx hn.2 hn.1
          · exact ⟨_, by rw [hroot, write_same hread]⟩
        cases e with
        | none => exact ⟨by simpa using hP, _, hval, hnd, hnp, hsub⟩
        | some e => exact ⟨rfl, by simpa using hP⟩
      | ptr => simp only [Rep] at hrep; obtain ⟨_, _, _, rfl, _⟩ := hrep; trivial
      | slice => simp only [Rep] at hrep; obtain ⟨_, _, _, _, _, _, _, rfl, _⟩ := hrep; trivial
      | arr => simp only [Rep] at hrep; obtain ⟨_, rfl, _⟩ := hrep; trivial
      | struct => simp only [Rep] at hrep; obtain ⟨_, rfl, _⟩ := hrep; trivial
      | bytes => simp only [Rep] at hrep; obtain ⟨_, _, _, _, rfl, _⟩ := hrep; trivial
      | _ => simp only [Rep] at hrep; obtain ⟨rfl, _⟩ := hrep; trivial

end VJ
