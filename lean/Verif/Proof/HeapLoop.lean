import Verif.Proof.HeapBase

/-!
# Loops over cells and over map entries do in memory what they do on trees
-/

namespace VJ

theorem put_same {p : List Nat} : ∀ {v x : HVal}, v.at p = some x → v.put p x = v := by
  induction p with
  | nil => intro v x h; simp [HVal.at] at h; simp [HVal.put, h]
  | cons i p ih =>
    intro v x h
    cases v <;> simp only [HVal.at, reduceCtorEq] at h
    all_goals
      rename_i es
      cases he : es[i]? with
      | none => simp [he] at h
      | some y =>
        rw [he] at h
        rcases List.getElem?_eq_some_iff.mp he with ⟨hi, hy⟩
        simp only [HVal.put, he, ih (by simpa using h)]
        rw [← hy, List.set_getElem_self]

theorem write_same {h : Heap} {p : Spot} {v : HVal} (he : h.read p = some v) :
    (h.write p v).objs[p.loc]? = h.objs[p.loc]? := by
  obtain ⟨vs, u, h1, h2, h3⟩ := read_eq he
  rw [objs_write_self h1 h2, put_same h3, h1]
  rcases List.getElem?_eq_some_iff.mp h2 with ⟨hi, hy⟩
  rw [← hy, List.set_getElem_self]

theorem Upd.refl {h : Heap} {p : Spot} {L : List Loc} {v : HVal} (he : h.read p = some v) : Upd h h p L :=
  ⟨Nat.le_refl _, fun _ _ _ _ => rfl, v, (write_same he).symm⟩

theorem Upd.trans {h h1 h2 : Heap} {p : Spot} {L L1 : List Loc} {v : HVal} (he : h.read p = some v)
    (u1 : Upd h h1 p L) (u2 : Upd h1 h2 p L1) (hL : ∀ l ∈ L1, l ∈ L ∨ h.size ≤ l) : Upd h h2 p L := by
  refine ⟨Nat.le_trans u1.size u2.size, fun l hl hn hp => ?_, ?_⟩
  · rw [u2.other l (Nat.lt_of_lt_of_le hl u1.size) (fun hm => ?_) hp, u1.other l hl hn hp]
    rcases hL l hm with hm | hm
    · exact hn hm
    · omega
  · obtain ⟨w1, r1⟩ := u1.root
    obtain ⟨w2, r2⟩ := u2.root
    refine ⟨w2, ?_⟩
    rw [r2, write_congr r1, write_write he]

/-- What an untouched value looks like after new objects have appeared. -/
theorem Owns.fresh {h h' : Heap} {p : Spot} {g : GoVal} {L : List Loc} (ho : Owns h p g L)
    (hs : ∀ l, l < h.size → h'.objs[l]? = h.objs[l]?) : Owns h' p g L := by
  obtain ⟨v, hr, hv, nd, np⟩ := ho
  exact ⟨v, by rw [read_congr (hs _ (read_lt hr))]; exact hr, hv.frame fun l hl => hs l (hv.lt l hl), nd, np⟩

theorem Post.fresh {h h' : Heap} {p : Spot} {g : GoVal} {L : List Loc} (ho : Owns h p g L)
    (hz : h.size ≤ h'.size) (hs : ∀ l, l < h.size → h'.objs[l]? = h.objs[l]?) : Post h p L g h' := by
  refine ⟨L, ho.fresh hs, fun l hl => .inl hl, hz, fun l hl _ _ => hs l hl, ?_⟩
  obtain ⟨v, hr, -⟩ := ho
  exact ⟨v, by rw [hs _ (read_lt hr), write_same hr]⟩

theorem Post.refl {h : Heap} {p : Spot} {g : GoVal} {L : List Loc} (ho : Owns h p g L) : Post h p L g h :=
  Post.fresh ho (Nat.le_refl _) fun _ _ => rfl

theorem Post.trans {h h1 h2 : Heap} {p : Spot} {g2 : GoVal} {L L1 : List Loc} {v : HVal}
    (he : h.read p = some v) (u1 : Upd h h1 p L) (hL : ∀ l ∈ L1, l ∈ L ∨ h.size ≤ l)
    (p2 : Post h1 p L1 g2 h2) : Post h p L g2 h2 := by
  obtain ⟨L2, ho, hL2, u2⟩ := p2
  refine ⟨L2, ho, fun l hl => ?_, u1.trans he u2 hL⟩
  rcases hL2 l hl with hl | hl
  · exact hL l hl
  · exact .inr (Nat.le_trans u1.size hl)

/-- Nothing but new objects since. -/
theorem Post.later {h h1 h2 : Heap} {p : Spot} {g : GoVal} {L : List Loc} {v : HVal}
    (he : h.read p = some v) (p1 : Post h p L g h1) (hz : h1.size ≤ h2.size)
    (hs : ∀ l, l < h1.size → h2.objs[l]? = h1.objs[l]?) : Post h p L g h2 := by
  obtain ⟨L1, ho, hL, u⟩ := p1
  exact Post.trans he u hL (Post.fresh ho hz hs)

/-- Assigning a value to `p`. -/
theorem Post.store {h h1 : Heap} {p : Spot} {g val : GoVal} {w : HVal} {L M : List Loc}
    (p1 : Post h p L g h1) (hr : Rep h1 val w M) (nd : M.Nodup) (np : p.loc ∉ M)
    (hM : ∀ l ∈ M, l ∈ L ∨ h.size ≤ l) (hp : h.read p ≠ none) : Post h p L val (h1.write p w) := by
  obtain ⟨L1, ⟨v1, hr1, hv1, -, -⟩, hL, u⟩ := p1
  obtain ⟨v, hv⟩ := Option.ne_none_iff_exists'.mp hp
  refine ⟨M, ⟨w, read_write_self hr1, hr.frame fun l hl => objs_write_ne fun e => np (e ▸ hl), nd, np⟩, hM, ?_⟩
  refine ⟨by simpa using u.size, fun l hl hn hq => ?_, w, ?_⟩
  · rw [objs_write_ne hq, u.other l hl hn hq]
  · obtain ⟨w1, r1⟩ := u.root
    rw [write_congr r1, write_write hv]

/-! ## Rows of cells -/

/-- A row of places that can be read and assigned to one by one: the cells of an array from
`base` on, or the parts of a struct or array variable. -/
structure Row (pl : Nat → Spot) (loc : Loc) (base : Nat) (holds : Heap → List HVal → Prop) : Prop where
  at_loc : ∀ i, (pl i).loc = loc
  lt : ∀ {h vs}, holds h vs → loc < h.size
  congr : ∀ {h h' vs}, holds h vs → h'.objs[loc]? = h.objs[loc]? → holds h' vs
  read : ∀ {h vs i v}, holds h vs → vs[base + i]? = some v → h.read (pl i) = some v
  write : ∀ {h h' vs i v w}, holds h vs → vs[base + i]? = some v →
    h'.objs[loc]? = (h.write (pl i) w).objs[loc]? → holds h' (vs.set (base + i) w)

theorem Row.cells (l base : Nat) :
    Row (fun i => .cell l (base + i)) l base (fun h vs => h.objs[l]? = some (.cells vs)) where
  at_loc _ := rfl
  lt hh := lt_size hh
  congr hh he := by rw [he, hh]
  read hh hv := by simp [Heap.read, Spot.cell, hh, hv, HVal.at]
  write hh hv he := by
    rw [he]
    exact objs_write_self (p := Spot.cell l _) hh hv

theorem Row.parts {h0 : Heap} {p : Spot} {v0 : HVal} (he : h0.read p = some v0) (mk : List HVal → HVal)
    (hat : ∀ i vs, HVal.at [i] (mk vs) = vs[i]?)
    (hput : ∀ i vs v w, vs[i]? = some v → (mk vs).put [i] w = mk (vs.set i w)) :
    Row p.part p.loc 0 (fun h vs => h.read p = some (mk vs) ∧ ∃ w, h.objs[p.loc]? = (h0.write p w).objs[p.loc]?) where
  at_loc _ := rfl
  lt hh := read_lt hh.1
  congr hh he := ⟨by rw [read_congr he]; exact hh.1, by rw [he]; exact hh.2⟩
  read hh hv := by rw [read_part, hh.1]; simpa [hat] using hv
  write {h h' vs i v w} hh hv e := by
    rw [write_part hh.1, hput _ _ v _ (by simpa using hv)] at e
    refine ⟨?_, mk (vs.set i w), ?_⟩
    · rw [read_congr e, read_write_self hh.1]; simp
    · obtain ⟨w1, r1⟩ := hh.2
      rw [e, write_congr r1, write_write he]

theorem Row.structParts {h0 : Heap} {p : Spot} {v0 : HVal} (he : h0.read p = some v0) :
    Row p.part p.loc 0 (fun h vs => h.read p = some (.struct vs) ∧ ∃ w, h.objs[p.loc]? = (h0.write p w).objs[p.loc]?) :=
  Row.parts he .struct (fun i vs => by cases h : vs[i]? <;> simp [HVal.at, h])
    (fun i vs v w hv => by simp [HVal.put, hv])

theorem Row.arrParts {h0 : Heap} {p : Spot} {v0 : HVal} (he : h0.read p = some v0) :
    Row p.part p.loc 0 (fun h vs => h.read p = some (.arr vs) ∧ ∃ w, h.objs[p.loc]? = (h0.write p w).objs[p.loc]?) :=
  Row.parts he .arr (fun i vs => by cases h : vs[i]? <;> simp [HVal.at, h])
    (fun i vs v w hv => by simp [HVal.put, hv])

theorem RepL.length {h : Heap} : ∀ {gs : List GoVal} {vs : List HVal} {L : List Loc}, RepL h gs vs L → vs.length = gs.length
  | [], _, _, hr => by simp only [RepL] at hr; simp [hr.1]
  | g :: gs, vs, L, hr => by
    simp only [RepL] at hr
    obtain ⟨v, vs', M, N, rfl, h1, h2, rfl⟩ := hr
    simp [h2.length]

/-- The state of a loop over a row: `gs` are the trees still to come, in `ws`. -/
structure RowState (holds : Heap → List HVal → Prop) (loc : Loc) (h : Heap) (pre ws post : List HVal)
    (gs : List GoVal) (L : List Loc) : Prop where
  row : holds h (pre ++ ws ++ post)
  rep : RepL h gs ws L
  nodup : L.Nodup
  out : loc ∉ L

/-- Only the row at `loc`, the objects `L` and new objects differ. -/
structure RowUpd (h h' : Heap) (loc : Loc) (L : List Loc) : Prop where
  size : h.size ≤ h'.size
  other : ∀ l, l < h.size → l ∉ L → l ≠ loc → h'.objs[l]? = h.objs[l]?

/-- One round on the first place of the row. -/
theorem RowState.round {holds : Heap → List HVal → Prop} {pl : Nat → Spot} {loc base i : Nat} (R : Row pl loc base holds)
    {h : Heap} {pre : List HVal} {w : HVal} {ws post : List HVal} {g : GoVal} {gs : List GoVal} {L : List Loc}
    (hi : pre.length = base + i) (S : RowState holds loc h pre (w :: ws) post (g :: gs) L) :
    ∃ M N, L = M ++ N ∧ Owns h (pl i) g M ∧
      ∀ {g' h'}, Post h (pl i) M g' h' →
        ∃ w' M', RowState holds loc h' (pre ++ [w']) ws post gs N ∧ Rep h' g' w' M' ∧ M'.Nodup ∧ loc ∉ M' ∧
          (∀ l ∈ M', l ∈ M ∨ h.size ≤ l) ∧ RowUpd h h' loc M := by
  obtain ⟨hrow, hrep, nd, out⟩ := S
  simp only [RepL] at hrep
  obtain ⟨v, vs', M, N, he, h1, h2, rfl⟩ := hrep
  simp only [List.cons.injEq] at he
  obtain ⟨rfl, rfl⟩ := he
  have hv : (pre ++ (w :: ws) ++ post)[base + i]? = some w := by
    simp [← hi]
  rw [List.nodup_append] at nd
  simp only [List.mem_append, not_or] at out
  refine ⟨M, N, rfl, ⟨w, R.read hrow hv, h1, nd.1, by rw [R.at_loc]; exact out.1⟩, ?_⟩
  intro g' h' hP
  obtain ⟨M', ⟨w', hr', hv', nd', np'⟩, hM', u⟩ := hP
  obtain ⟨w2, r2⟩ := u.root
  rw [R.at_loc] at r2 np'
  have hrow' := R.write hrow hv r2
  have hset : (pre ++ (w :: ws) ++ post).set (base + i) w2 = (pre ++ [w2]) ++ ws ++ post := by
    simp [← hi]
  rw [hset] at hrow'
  have hw : w2 = w' := by
    have := R.read (i := i) (v := w2) hrow' (by simp [← hi])
    rw [hr'] at this
    simpa using this.symm
  subst hw
  refine ⟨w2, M', ⟨hrow', h2.frame fun l hl => ?_, nd.2.1, out.2⟩, hv', nd', np', hM', u.size, ?_⟩
  · refine u.other l (h2.lt l hl) (fun hm => nd.2.2 l hm l hl rfl) ?_
    rw [R.at_loc]; exact fun e => out.2 (e ▸ hl)
  · intro l hl hn hp
    exact u.other l hl hn (by rw [R.at_loc]; exact hp)

/-- Put a finished place in front of what the rest of the loop did. -/
theorem RowState.cons {holds : Heap → List HVal → Prop} {loc : Loc} {h h1 h2 : Heap} {pre post : List HVal}
    {w : HVal} {g : GoVal} {M N M' N' : List Loc} {ws' : List HVal} {gs' : List GoVal}
    (nd : (M ++ N).Nodup) (hN : ∀ l ∈ N, l < h.size)
    (hr : Rep h1 g w M') (nd' : M'.Nodup) (out' : loc ∉ M')
    (hM' : ∀ l ∈ M', l ∈ M ∨ h.size ≤ l) (u1 : RowUpd h h1 loc M)
    (S : RowState holds loc h2 (pre ++ [w]) ws' post gs' N') (hN' : ∀ l ∈ N', l ∈ N ∨ h1.size ≤ l)
    (u2 : RowUpd h1 h2 loc N) :
    RowState holds loc h2 pre (w :: ws') post (g :: gs') (M' ++ N') ∧
      (∀ l ∈ M' ++ N', l ∈ M ++ N ∨ h.size ≤ l) ∧ RowUpd h h2 loc (M ++ N) := by
  rw [List.nodup_append] at nd
  have hsep : ∀ l ∈ M', l ∉ N := by
    intro l hl hn
    rcases hM' l hl with hm | hm
    · exact nd.2.2 l hm l hn rfl
    · exact absurd (hN l hn) (Nat.not_lt.mpr hm)
  refine ⟨⟨by simpa using S.row, ?_, ?_, ?_⟩, ?_, ?_, ?_⟩
  · simp only [RepL]
    refine ⟨w, ws', M', N', rfl, hr.frame fun l hl => ?_, S.rep, rfl⟩
    exact u2.other l (hr.lt l hl) (hsep l hl) (fun e => out' (e ▸ hl))
  · rw [List.nodup_append]
    refine ⟨nd', S.nodup, fun a ha b hb e => ?_⟩
    subst e
    rcases hN' a hb with hn | hn
    · exact hsep a ha hn
    · exact absurd (hr.lt a ha) (Nat.not_lt.mpr hn)
  · simp only [List.mem_append, not_or]; exact ⟨out', S.out⟩
  · intro l hl
    simp only [List.mem_append] at hl ⊢
    rcases hl with hl | hl
    · rcases hM' l hl with hm | hm
      · exact .inl (.inl hm)
      · exact .inr hm
    · rcases hN' l hl with hm | hm
      · exact .inl (.inr hm)
      · exact .inr (Nat.le_trans u1.size hm)
  · exact Nat.le_trans u1.size u2.size
  · intro l hl hn hp
    simp only [List.mem_append, not_or] at hn
    rw [u2.other l (Nat.lt_of_lt_of_le hl u1.size) hn.2 hp, u1.other l hl hn.1 hp]

/-- The loop ends here: the rest of the row stays. -/
theorem RowState.last {holds : Heap → List HVal → Prop} {loc : Loc} {h h1 : Heap} {pre post : List HVal}
    {w : HVal} {g : GoVal} {M N M' : List Loc} {ws : List HVal} {gs : List GoVal}
    (nd : (M ++ N).Nodup) (hN : ∀ l ∈ N, l < h.size)
    (hr : Rep h1 g w M') (nd' : M'.Nodup) (out' : loc ∉ M')
    (hM' : ∀ l ∈ M', l ∈ M ∨ h.size ≤ l) (u1 : RowUpd h h1 loc M)
    (S : RowState holds loc h1 (pre ++ [w]) ws post gs N) :
    RowState holds loc h1 pre (w :: ws) post (g :: gs) (M' ++ N) ∧
      (∀ l ∈ M' ++ N, l ∈ M ++ N ∨ h.size ≤ l) ∧ RowUpd h h1 loc (M ++ N) :=
  RowState.cons nd hN hr nd' out' hM' u1 S (fun _ hl => .inl hl) ⟨Nat.le_refl _, fun _ _ _ _ => rfl⟩

/-- How a round on a tree and one in memory correspond. -/
def CellRel (h : Heap) (p : Spot) (L : List Loc) : Cell → HCell × Heap → Prop
  | .store w, (.store, h') => Post h p L w h'
  | .ret e w, (.ret e', h') => e = e' ∧ Post h p L w h'
  | .brk e w, (.brk e', h') => e = e' ∧ Post h p L w h'
  | _, _ => False

theorem sliceLoop_rel {holds : Heap → List HVal → Prop} {pl : Nat → Spot} {loc base : Nat} (R : Row pl loc base holds)
    {f : Nat → JV → GoVal → Out Cell} {hf : Nat → JV → Spot → Heap → Out (HCell × Heap)}
    (hR : ∀ i a p h g L, Owns h p g L → OutRel (CellRel h p L) (f i a g) (hf i a p h)) (cap : Nat) :
    ∀ (as : List JV) (i : Nat) (h : Heap) (pre ws post : List HVal) (gs : List GoVal) (L : List Loc),
      pre.length = base + i → i + gs.length = cap → RowState holds loc h pre ws post gs L →
      OutRel (fun a b => a.1 = b.1 ∧ a.2.1 = b.2.1 ∧ a.2.1 ≤ cap ∧ ∃ ws' L',
          RowState holds loc b.2.2 pre ws' post a.2.2 L' ∧ a.2.2.length = gs.length ∧
          (∀ l ∈ L', l ∈ L ∨ h.size ≤ l) ∧ RowUpd h b.2.2 loc L)
        (sliceLoop f i as gs) (hsliceLoop hf pl cap i as h) := by
  intro as
  induction as with
  | nil =>
    intro i h pre ws post gs L hi hc S
    cases gs <;>
      exact ⟨rfl, rfl, by show i ≤ cap; omega, ws, L, S, rfl, fun l hl => .inl hl, Nat.le_refl _, fun _ _ _ _ => rfl⟩
  | cons a as ih =>
    intro i h pre ws post gs L hi hc S
    cases gs with
    | nil =>
      have : ¬ i < cap := by simp at hc; omega
      simp [sliceLoop, hsliceLoop, this]
    | cons g gs =>
      have hlt : i < cap := by simp at hc; omega
      have hlen := S.rep.length
      cases ws with
      | nil => simp at hlen
      | cons w ws =>
        have hN := S.rep.lt
        have hnd := S.nodup
        obtain ⟨M, N, rfl, hown, hpost⟩ := S.round R hi
        have hNlt : ∀ l ∈ N, l < h.size := fun l hl => hN l (by simp [hl])
        simp only [sliceLoop, hsliceLoop, if_pos hlt]
        refine OutRel.bind (hR i a (pl i) h g M hown) ?_
        rintro c ⟨c', h1⟩ hcr
        cases c with
        | store v =>
          cases c' <;> simp only [CellRel] at hcr
          obtain ⟨w', M', S1, hr, nd', out', hM', u1⟩ := hpost hcr
          refine OutRel.bindL (ih (i + 1) h1 (pre ++ [w']) ws post gs N (by simp [hi]; omega) (by simp at hc; omega) S1) ?_
          rintro ⟨s, n, cs⟩ ⟨s', n', h2⟩ ⟨rfl, rfl, hn, ws', L', S2, hl, hL', u2⟩
          obtain ⟨S3, hL3, u3⟩ := RowState.cons hnd hNlt hr nd' out' hM' u1 S2 hL' u2
          exact ⟨rfl, rfl, hn, _, _, S3, by simp [hl], hL3, u3⟩
        | ret e v =>
          cases c' <;> simp only [CellRel] at hcr
          obtain ⟨rfl, hcr⟩ := hcr
          obtain ⟨w', M', S1, hr, nd', out', hM', u1⟩ := hpost hcr
          obtain ⟨S3, hL3, u3⟩ := RowState.last hnd hNlt hr nd' out' hM' u1 S1
          exact ⟨rfl, rfl, hlt, _, _, S3, rfl, hL3, u3⟩
        | brk e v =>
          cases c' <;> simp only [CellRel] at hcr
          obtain ⟨rfl, hcr⟩ := hcr
          obtain ⟨w', M', S1, hr, nd', out', hM', u1⟩ := hpost hcr
          obtain ⟨S3, hL3, u3⟩ := RowState.last hnd hNlt hr nd' out' hM' u1 S1
          exact ⟨rfl, rfl, hlt, _, _, S3, rfl, hL3, u3⟩

end VJ
