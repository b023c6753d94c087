import Verif.Proof.HeapEnc
import Verif.Proof.HeapExtr

/-!
# `Reset` in memory does what it does on trees when nothing is shared
-/

namespace VJ

theorem resetElems_rel {f : GoVal → Out GoVal} {hf : Spot → Heap → Out Heap}
    (hR : ∀ {p h g L}, Owns h p g L → OutRel (Post h p L) (f g) (hf p h)) {p : Spot} {l off len cap : Nat} (hpl : p.loc ≠ l) :
    ∀ (gs : List GoVal) (i : Nat) (h : Heap) (pre ws post : List HVal) (L : List Loc),
      pre.length = off + i → i + gs.length = len → h.read p = some (.slice l off len cap) → p.loc ∉ L →
      RowState (fun h vs => h.objs[l]? = some (.cells vs)) l h pre ws post gs L →
      OutRel (fun gs' h' => ∃ ws' L', RowState (fun h vs => h.objs[l]? = some (.cells vs)) l h' pre ws' post gs' L' ∧
          gs'.length = gs.length ∧ (∀ x ∈ L', x ∈ L ∨ h.size ≤ x) ∧ RowUpd h h' l L)
        (mapOut f gs) (hresetElems hf p gs.length i h) := by
  intro gs
  induction gs with
  | nil =>
    intro i h pre ws post L hi hc hp hn S
    exact ⟨ws, L, S, rfl, fun x hx => .inl hx, Nat.le_refl _, fun _ _ _ _ => rfl⟩
  | cons g gs ih =>
    intro i h pre ws post L hi hc hp hn S
    have hlen := S.rep.length
    cases ws with
    | nil => simp at hlen
    | cons w ws =>
      have hlt : i < len := by simp at hc; omega
      have hN := S.rep.lt
      have hnd := S.nodup
      obtain ⟨M, N, rfl, hown, hpost⟩ := S.round (Row.cells l off) hi
      have hNlt : ∀ l ∈ N, l < h.size := fun l hl => hN l (by simp [hl])
      simp only [mapOut, List.length_cons, hresetElems, hp, if_pos hlt]
      refine OutRel.bind (hR hown) ?_
      intro g' h1 hP
      obtain ⟨w', M', S1, hr, nd', out', hM', u1⟩ := hpost hP
      simp only [List.mem_append, not_or] at hn
      have hp1 : h1.read p = some (.slice l off len cap) := by
        rw [read_congr (u1.other _ (read_lt hp) hn.1 hpl), hp]
      refine OutRel.bindL (ih (i + 1) h1 (pre ++ [w']) ws post N (by simp [hi]; omega) (by simp at hc; omega) hp1 hn.2 S1) ?_
      rintro gs' h2 ⟨ws', L', S2, hl, hL', u2⟩
      obtain ⟨S3, hL3, u3⟩ := RowState.cons hnd hNlt hr nd' out' hM' u1 S2 hL' u2
      exact ⟨_, _, S3, by simp [hl], hL3, u3⟩

/-- Elements first, then `x = x[:0]`. -/
theorem resetSlice_rel {f : GoVal → Out GoVal} {hf : Spot → Heap → Out Heap}
    (hR : ∀ {p h g L}, Owns h p g L → OutRel (Post h p L) (f g) (hf p h)) {h : Heap} {p : Spot} {es sp : List GoVal} {L : List Loc}
    (ho : Owns h p (.slice es sp) L) :
    ∃ l off cap, h.read p = some (.slice l off es.length cap) ∧
      OutRel (Post h p L) (do let es' ← mapOut f es; return .slice [] (es' ++ sp))
        (do let h1 ← hresetElems hf p es.length 0 h; htruncate p h1) := by
  obtain ⟨v, hread, hrep, nd, np⟩ := ho
  simp only [Rep] at hrep
  obtain ⟨l, be, vs, ws, af, M, N, rfl, hobj, hr1, hr2, rfl⟩ := hrep
  refine ⟨l, _, _, hread, ?_⟩
  simp only [List.mem_cons, List.mem_append, not_or] at np
  rw [List.nodup_cons, List.nodup_append] at nd
  obtain ⟨hlout, ndM, ndN, hMN⟩ := nd
  simp only [List.mem_append, not_or] at hlout
  refine OutRel.bind (resetElems_rel hR np.1 es 0 h be vs (ws ++ af) M (by simp) (by simp) hread np.2.1
    ⟨by rw [hobj]; simp, hr1, ndM, hlout.1⟩) ?_
  rintro es' h1 ⟨vs', M', S, hlen, hM', u⟩
  have hp1 : h1.read p = some (.slice l be.length es.length (es.length + sp.length)) := by
    rw [read_congr (u.other _ (read_lt hread) np.2.1 np.1), hread]
  simp only [htruncate, hp1]
  have hr2' : RepL h1 sp ws N := hr2.frame fun x hx =>
    u.other x (hr2.lt x hx) (fun hm => hMN x hm x hx rfl) (fun e => hlout.2 (e ▸ hx))
  have hM'N : ∀ x ∈ M', x ∉ N := fun x hx hn => by
    rcases hM' x hx with hm | hm
    · exact hMN x hm x hn rfl
    · exact absurd (hr2.lt x hn) (Nat.not_lt.mpr hm)
  have hpM' : p.loc ∉ M' := fun hm => by
    rcases hM' _ hm with hm | hm
    · exact np.2.1 hm
    · exact absurd (read_lt hread) (Nat.not_lt.mpr hm)
  have hpost : Post h p (l :: (M ++ N)) (.slice es' sp) h1 := by
    refine ⟨l :: (M' ++ N), ⟨_, hp1, ?_, ?_, ?_⟩, ?_, u.size, ?_, ?_⟩
    · simp only [Rep]
      refine ⟨l, be, vs', ws, af, M', N, by rw [hlen], ?_, S.rep, hr2', rfl⟩
      rw [S.row]; simp
    · rw [List.nodup_cons, List.nodup_append]
      refine ⟨?_, S.nodup, ndN, fun a ha b hb e => hM'N a ha (e ▸ hb)⟩
      simp only [List.mem_append, not_or]
      exact ⟨S.out, hlout.2⟩
    · simp only [List.mem_cons, List.mem_append, not_or]
      exact ⟨np.1, hpM', np.2.2⟩
    · intro x hx
      simp only [List.mem_cons, List.mem_append] at hx ⊢
      rcases hx with hx | hx | hx
      · exact .inl (.inl hx)
      · rcases hM' x hx with hx | hx
        · exact .inl (.inr (.inl hx))
        · exact .inr hx
      · exact .inl (.inr (.inr hx))
    · intro x hx hn hp
      simp only [List.mem_cons, List.mem_append, not_or] at hn
      exact u.other x hx hn.2.1 hn.1
    · refine ⟨.slice l be.length es.length (es.length + sp.length), ?_⟩
      rw [write_same hread]
      exact u.other _ (read_lt hread) np.2.1 np.1
  refine hpost.store (M := l :: (M' ++ N)) ?_ ?_ ?_ ?_ (by simp [hread])
  · simp only [Rep]
    refine ⟨l, be, [], vs' ++ ws, af, [], M' ++ N, by simp [hlen], ?_, by simp [RepL], S.rep.append hr2', by simp⟩
    rw [S.row]; simp
  · rw [List.nodup_cons, List.nodup_append]
    refine ⟨?_, S.nodup, ndN, fun a ha b hb e => hM'N a ha (e ▸ hb)⟩
    simp only [List.mem_append, not_or]
    exact ⟨S.out, hlout.2⟩
  · simp only [List.mem_cons, List.mem_append, not_or]
    exact ⟨np.1, hpM', np.2.2⟩
  · intro x hx
    simp only [List.mem_cons, List.mem_append] at hx ⊢
    rcases hx with hx | hx | hx
    · exact .inl (.inl hx)
    · rcases hM' x hx with hx | hx
      · exact .inl (.inr (.inl hx))
      · exact .inr hx
    · exact .inl (.inr (.inr hx))

/-! ## Bytes -/

theorem zeroBytes_keep (l off : Nat) (n : Nat) (h : Heap) :
    (zeroBytes l off n h).size = h.size ∧ (∀ x, x ≠ l → (zeroBytes l off n h).objs[x]? = h.objs[x]?) ∧
      ∀ vs, h.objs[l]? = some (.cells vs) → ∃ vs', (zeroBytes l off n h).objs[l]? = some (.cells vs') ∧ vs'.length = vs.length := by
  induction n with
  | zero => exact ⟨rfl, fun _ _ => rfl, fun vs hv => ⟨vs, hv, rfl⟩⟩
  | succ n ih =>
    obtain ⟨h1, h2, h3⟩ := ih
    refine ⟨by simp [zeroBytes, h1], fun x hx => ?_, fun vs hv => ?_⟩
    · rw [zeroBytes, objs_write_ne (by simpa [Spot.cell] using hx), h2 x hx]
    · obtain ⟨vs', hv', hl⟩ := h3 vs hv
      simp only [zeroBytes]
      cases hi : vs'[off + n]? with
      | none =>
        refine ⟨vs', ?_, hl⟩
        simp [Heap.write, Spot.cell, hv', hi]
      | some u =>
        refine ⟨vs'.set (off + n) (u.put [] (.int 0)), ?_, by simpa using hl⟩
        exact objs_write_self (p := Spot.cell l (off + n)) hv' hi

/-- Any cells between the bounds of a byte slice will do behind its length. -/
theorem rep_noBytes {h : Heap} {l : Loc} {be : List HVal} {n : Nat} {vs : List HVal} (ho : h.objs[l]? = some (.cells vs))
    (hl : be.length + n ≤ vs.length) : Rep h (.bytes []) (.bytes l be.length 0 n) [l] := by
  simp only [Rep]
  refine ⟨l, vs.take be.length, (vs.drop be.length).take n, (vs.drop be.length).drop n, ?_, ?_, rfl⟩
  · simp only [List.length_take, List.length_drop, List.length_nil]
    congr 1
    · omega
    · omega
  · rw [ho]
    have : byteCells [] = [] := rfl
    rw [this, List.nil_append, List.append_assoc, List.take_append_drop, List.take_append_drop]

theorem resetBytes_rel {h : Heap} {p : Spot} {b : List UInt8} {L : List Loc} (ho : Owns h p (.bytes b) L) :
    ∃ l off cap, h.read p = some (.bytes l off b.length cap) ∧
      Post h p L (.bytes []) ((zeroBytes l off b.length h).write p (.bytes l off 0 cap)) ∧
      Post h p L (.bytes []) (h.write p (.bytes l off 0 cap)) := by
  have ho' := ho
  obtain ⟨v, hread, hrep, nd, np⟩ := ho
  simp only [Rep] at hrep
  obtain ⟨l, be, ws, af, rfl, hobj, rfl⟩ := hrep
  simp only [List.mem_singleton] at np
  have hlen : (byteCells b).length = b.length := by simp [byteCells]
  refine ⟨l, _, _, hread, ?_, ?_⟩
  · obtain ⟨h1, h2, h3⟩ := zeroBytes_keep l be.length b.length h
    obtain ⟨vs', hv', hl'⟩ := h3 _ hobj
    generalize zeroBytes l be.length b.length h = h1' at *
    have hp1 := read_congr (p := p) (h2 _ np)
    rw [hread] at hp1
    refine ⟨[l], ⟨_, read_write_self hp1, ?_, by simp, by simpa using np⟩, fun x hx => .inl hx, by simp [h1], ?_, ?_⟩
    · refine rep_noBytes (vs := vs') ?_ ?_
      · rw [objs_write_ne (fun e => np e.symm), hv']
      · rw [hl']; simp [hlen]
    · intro x hx hn hp
      rw [objs_write_ne hp, h2 x (by simpa using hn)]
    · exact ⟨_, write_congr (h2 _ np)⟩
  · refine (Post.refl ho').store (M := [l]) (rep_noBytes hobj ?_) (by simp) (by simpa using np) (fun x hx => .inl hx) (by simp [hread])
    simp [hlen]

/-! ## Maps -/

theorem resetEntries_rel {f : GoVal → Out GoVal} {hf : Spot → Heap → Out Heap}
    (hR : ∀ {p h g L}, Owns h p g L → OutRel (Post h p L) (f g) (hf p h)) {l : Loc} :
    ∀ (gs : List (Str × GoVal)) (h : Heap) (pre ws : List (Str × HVal)) (K : List Loc),
      h.objs[l]? = some (.map (pre ++ ws)) → RepKV h gs ws K → K.Nodup → l ∉ K →
      OutRel (fun gs' h' => ∃ ws' K', h'.objs[l]? = some (.map (pre ++ ws')) ∧ RepKV h' gs' ws' K' ∧ K'.Nodup ∧ l ∉ K' ∧
          (∀ x ∈ K', x ∈ K ∨ h.size ≤ x) ∧ RowUpd h h' l K)
        (mapOutKV f gs) (hresetEntries hf l gs.length pre.length h) := by
  intro gs
  induction gs with
  | nil =>
    intro h pre ws K ho hr nd out
    have hr' := hr
    simp only [RepKV] at hr'
    obtain ⟨rfl, rfl⟩ := hr'
    exact ⟨[], [], ho, hr, nd, out, fun x hx => .inl hx, Nat.le_refl _, fun _ _ _ _ => rfl⟩
  | cons kg gs ih =>
    obtain ⟨k, g⟩ := kg
    intro h pre ws K ho hr nd out
    simp only [RepKV] at hr
    obtain ⟨v, ws, M, N, rfl, h1, h2, rfl⟩ := hr
    rw [List.nodup_append] at nd
    simp only [List.mem_append, not_or] at out
    have hget : (pre ++ (k, v) :: ws)[pre.length]? = some (k, v) := by simp
    have hlt := lt_size ho
    have hown : Owns (h.alloc (.cells [v])) (.cell h.size 0) g M := by
      refine ⟨v, by simp [Heap.read, Spot.cell, HVal.at], h1.grow (MemGrows.alloc _ _), nd.1, ?_⟩
      simp only [Spot.cell]
      exact fun hm => absurd (h1.lt _ hm) (Nat.lt_irrefl _)
    simp only [mapOutKV, List.length_cons, hresetEntries, Heap.entries, ho, Out.ok_bind, hget]
    refine OutRel.bind (hR hown) ?_
    rintro g' ha ⟨M', ⟨w, hw, hrep, nd', np'⟩, hM', ua⟩
    simp only [hw]
    have hsa : h.size ≤ ha.size := by
      have := ua.size
      simp only [size_alloc] at this
      exact Nat.le_of_succ_le this
    have hother : ∀ x, x < h.size → x ∉ M → ha.objs[x]? = h.objs[x]? := by
      intro x hx hn
      rw [ua.other x (by simp; exact Nat.lt_succ_of_lt hx) hn (by simp only [Spot.cell]; exact Nat.ne_of_lt hx), objs_alloc_lt hx]
    have hoa : ha.objs[l]? = some (.map (pre ++ (k, v) :: ws)) := by rw [hother l hlt out.1, ho]
    have hM'2 : ∀ x ∈ M', x ∈ M ∨ h.size ≤ x := fun x hx => by
      rcases hM' x hx with hx | hx
      · exact .inl hx
      · simp only [size_alloc] at hx
        exact .inr (Nat.le_of_succ_le hx)
    have hlM' : l ∉ M' := fun hm => by
      rcases hM'2 l hm with hm | hm
      · exact out.1 hm
      · exact absurd hlt (Nat.not_lt.mpr hm)
    generalize hhb : (⟨ha.objs.set l (.map (pre ++ (k, w) :: ws))⟩ : Heap) = hb
    have hput : ha.entryPut l pre.length k w = .ok hb := by
      simp [Heap.entryPut, hoa, ← hhb]
    have hsb : hb.size = ha.size := by rw [← hhb]; simp [Heap.size]
    have hbo : ∀ x, x ≠ l → hb.objs[x]? = ha.objs[x]? := by
      intro x hx
      rw [← hhb]
      simp only
      rw [List.getElem?_set_ne (fun e : l = x => hx e.symm)]
    have hbl : hb.objs[l]? = some (.map ((pre ++ [(k, w)]) ++ ws)) := by
      have := lt_size hoa
      unfold Heap.size at this
      rw [← hhb]; simp [this]
    rw [hput]
    simp only [Out.ok_bind]
    have hN2 : RepKV hb gs ws N := h2.frame fun x hx => by
      rw [hbo x (fun e => out.2 (e ▸ hx)), hother x (h2.lt x hx) (fun hm => nd.2.2 x hm x hx rfl)]
    have := ih hb (pre ++ [(k, w)]) ws N hbl hN2 nd.2.1 out.2
    rw [List.length_append, List.length_singleton] at this
    refine OutRel.bindL this ?_
    rintro gs' hc ⟨ws', K', hoc, hrc, ndc, outc, hKc, uc⟩
    have hsep : ∀ x ∈ M', x ∉ N := fun x hx hn => by
      rcases hM'2 x hx with hm | hm
      · exact nd.2.2 x hm x hn rfl
      · exact absurd (h2.lt x hn) (Nat.not_lt.mpr hm)
    refine ⟨(k, w) :: ws', M' ++ K', by rw [hoc]; simp, ?_, ?_, ?_, ?_, ?_, ?_⟩
    · simp only [RepKV]
      refine ⟨w, ws', M', K', rfl, hrep.frame fun x hx => ?_, hrc, rfl⟩
      have hxl : x ≠ l := fun e => hlM' (e ▸ hx)
      rw [uc.other x (by rw [hsb]; exact hrep.lt x hx) (hsep x hx) hxl, hbo x hxl]
    · rw [List.nodup_append]
      refine ⟨nd', ndc, fun a ha' b hb' e => ?_⟩
      subst e
      rcases hKc a hb' with hn | hn
      · exact hsep a ha' hn
      · rw [hsb] at hn
        exact absurd (hrep.lt a ha') (Nat.not_lt.mpr hn)
    · simp only [List.mem_append, not_or]; exact ⟨hlM', outc⟩
    · intro x hx
      simp only [List.mem_append] at hx ⊢
      rcases hx with hx | hx
      · rcases hM'2 x hx with hm | hm
        · exact .inl (.inl hm)
        · exact .inr hm
      · rcases hKc x hx with hm | hm
        · exact .inl (.inr hm)
        · rw [hsb] at hm
          exact .inr (Nat.le_trans hsa hm)
    · exact Nat.le_trans hsa (hsb ▸ uc.size)
    · intro x hx hn hp
      simp only [List.mem_append, not_or] at hn
      rw [uc.other x (by rw [hsb]; exact Nat.lt_of_lt_of_le hx hsa) hn.2 hp, hbo x hp, hother x hx hn.1]

/-! ## Statements and declarations -/

/-- Assigning the zero value. -/
theorem resetConst_rel {M : Nat → Methods} {H : Nat → HMethods} (hM : ∀ n, MSim (M n) (H n)) (t : TExpr)
    {h : Heap} {p : Spot} {g : GoVal} {L : List Loc} (ho : Owns h p g L) :
    OutRel (Post h p L) (zeroT M t) (do let z ← hzeroT H t; return h.write p z) := by
  have hrd : h.read p ≠ none := by obtain ⟨v, hv, -⟩ := ho; simp [hv]
  refine OutRel.bindR (hzeroT_rel hM t) fun z z' hz => ?_
  exact (Post.refl ho).store (hz h) (by simp) (by simp) (by simp) hrd

theorem hrunReset_rel {M : Nat → Methods} {H : Nat → HMethods} (hM : ∀ n, MSim (M n) (H n)) :
    ∀ (x : RIR) {p : Spot} {h : Heap} {g : GoVal} {L : List Loc}, Owns h p g L →
      OutRel (Post h p L) (runReset M x g) (hrunReset H x p h) := by
  intro x
  induction x with
  | slice x ih =>
    intro p h g L ho
    cases g with
    | nil =>
      have ho' := ho
      obtain ⟨v, hread, hrep, nd, np⟩ := ho
      simp only [Rep] at hrep
      obtain ⟨rfl, rfl⟩ := hrep
      simp only [runReset, hrunReset, hread]
      exact Post.refl ho'
    | slice es sp =>
      obtain ⟨l, off, cap, hread, hP⟩ := resetSlice_rel ih ho
      simp only [runReset, hrunReset, hread]
      exact hP
    | _ =>
      obtain ⟨v, hread, hrep, nd, np⟩ := ho
      rcases hrep.leaf with ⟨_, h1, rfl⟩ | ⟨_, h1, rfl⟩ | ⟨_, h1, rfl⟩ | ⟨_, h1, rfl⟩ | ⟨_, h1, rfl⟩ | ⟨_, h1, rfl⟩ | ⟨_, h1, rfl⟩ | ⟨h1, rfl⟩ |
        ⟨es, vs, h1, rfl, hl⟩ | ⟨es, vs, h1, rfl, hl⟩ | ⟨g', l, u, K, h1, rfl, hd, hl⟩ | ⟨es, sp, l, off, cap, vs, K, h1, rfl, hd, hl⟩ |
        ⟨b, l, off, cap, h1, rfl, hd⟩ | ⟨kvs, l, ws, K, h1, rfl, hd, hl⟩ <;>
        first | (cases h1; done) | simp [runReset, hrunReset, hread]
  | bytes =>
    intro p h g L ho
    cases g with
    | nil =>
      have ho' := ho
      obtain ⟨v, hread, hrep, nd, np⟩ := ho
      simp only [Rep] at hrep
      obtain ⟨rfl, rfl⟩ := hrep
      simp only [runReset, hrunReset, hread]
      exact Post.refl ho'
    | bytes b =>
      obtain ⟨l, off, cap, hread, hP, -⟩ := resetBytes_rel ho
      simp only [runReset, hrunReset, hread]
      exact hP
    | _ =>
      obtain ⟨v, hread, hrep, nd, np⟩ := ho
      rcases hrep.leaf with ⟨_, h1, rfl⟩ | ⟨_, h1, rfl⟩ | ⟨_, h1, rfl⟩ | ⟨_, h1, rfl⟩ | ⟨_, h1, rfl⟩ | ⟨_, h1, rfl⟩ | ⟨_, h1, rfl⟩ | ⟨h1, rfl⟩ |
        ⟨es, vs, h1, rfl, hl⟩ | ⟨es, vs, h1, rfl, hl⟩ | ⟨g', l, u, K, h1, rfl, hd, hl⟩ | ⟨es, sp, l, off, cap, vs, K, h1, rfl, hd, hl⟩ |
        ⟨b, l, off, cap, h1, rfl, hd⟩ | ⟨kvs, l, ws, K, h1, rfl, hd, hl⟩ <;>
        first | (cases h1; done) | simp [runReset, hrunReset, hread]
  | const t =>
    intro p h g L ho
    simp only [runReset, hrunReset]
    exact resetConst_rel hM t ho
  | clearMap =>
    intro p h g L ho
    cases g with
    | nil =>
      have ho' := ho
      obtain ⟨v, hread, hrep, nd, np⟩ := ho
      simp only [Rep] at hrep
      obtain ⟨rfl, rfl⟩ := hrep
      simp only [runReset, hrunReset, hread]
      exact Post.refl ho'
    | map kvs =>
      have ho' := ho
      obtain ⟨v, hread, hrep, nd, np⟩ := ho
      simp only [Rep] at hrep
      obtain ⟨l, ws, K, rfl, hobj, hr, rfl⟩ := hrep
      simp only [List.mem_cons, not_or] at np
      have hsz := lt_size hobj
      unfold Heap.size at hsz
      simp only [runReset, hrunReset, hread, Heap.entries, hobj, Out.ok_bind, hr.length]
      split
      · exact (Post.refl ho').store (M := []) (by simp [Rep]) (by simp) (by simp) (by simp) (by simp [hread])
      · refine ⟨[l], ⟨.map l, ?_, ?_, by simp, by simpa using np.1⟩, fun x hx => .inl ?_, ?_, ?_, ?_⟩
        · rw [read_congr (h := h) (by simp [List.getElem?_set_ne (Ne.symm np.1)]), hread]
        · simp only [Rep, RepKV]
          exact ⟨l, [], [], rfl, by simp [hsz], ⟨rfl, rfl⟩, rfl⟩
        · rw [List.mem_singleton] at hx; simp [hx]
        · simp [Heap.size]
        · intro x hx hn hp
          simp only [List.mem_cons, not_or] at hn
          simp [List.getElem?_set_ne (Ne.symm hn.1)]
        · refine ⟨.map l, ?_⟩
          rw [write_same hread]
          simp [List.getElem?_set_ne (Ne.symm np.1)]
    | _ =>
      obtain ⟨v, hread, hrep, nd, np⟩ := ho
      rcases hrep.leaf with ⟨_, h1, rfl⟩ | ⟨_, h1, rfl⟩ | ⟨_, h1, rfl⟩ | ⟨_, h1, rfl⟩ | ⟨_, h1, rfl⟩ | ⟨_, h1, rfl⟩ | ⟨_, h1, rfl⟩ | ⟨h1, rfl⟩ |
        ⟨es, vs, h1, rfl, hl⟩ | ⟨es, vs, h1, rfl, hl⟩ | ⟨g', l, u, K, h1, rfl, hd, hl⟩ | ⟨es, sp, l, off, cap, vs, K, h1, rfl, hd, hl⟩ |
        ⟨b, l, off, cap, h1, rfl, hd⟩ | ⟨kvs, l, ws, K, h1, rfl, hd, hl⟩ <;>
        first | (cases h1; done) | simp [runReset, hrunReset, hread]
  | method n =>
    intro p h g L ho
    simp only [runReset, hrunReset]
    exact (hM n).reset ho

theorem hrunResets_rel {M : Nat → Methods} {H : Nat → HMethods} (hM : ∀ n, MSim (M n) (H n)) {holds : Heap → List HVal → Prop} {p : Spot}
    (R : Row p.part p.loc 0 holds) :
    ∀ (xs : List RIR) (gs : List GoVal) (i : Nat) (h : Heap) (pre ws : List HVal) (L : List Loc),
      pre.length = i → RowState holds p.loc h pre ws [] gs L →
      OutRel (fun gs' h' => ∃ ws' L', RowState holds p.loc h' pre ws' [] gs' L' ∧
          (∀ x ∈ L', x ∈ L ∨ h.size ≤ x) ∧ RowUpd h h' p.loc L)
        (runResets M xs gs) (hrunResets H p gs.length i xs h) := by
  intro xs
  induction xs with
  | nil =>
    intro gs i h pre ws L hi S
    cases gs with
    | nil => exact ⟨ws, L, S, fun x hx => .inl hx, Nat.le_refl _, fun _ _ _ _ => rfl⟩
    | cons g gs => trivial
  | cons x xs ih =>
    intro gs i h pre ws L hi S
    cases gs with
    | nil => trivial
    | cons g gs =>
      have hlen := S.rep.length
      cases ws with
      | nil => simp at hlen
      | cons w ws =>
        have hN := S.rep.lt
        have hnd := S.nodup
        obtain ⟨M', N, rfl, hown, hpost⟩ := S.round R (by simpa using hi)
        have hNlt : ∀ l ∈ N, l < h.size := fun l hl => hN l (by simp [hl])
        simp only [runResets, List.length_cons, hrunResets]
        refine OutRel.bind (hrunReset_rel hM x hown) ?_
        intro g' h1 hP
        obtain ⟨w', M', S1, hr, nd', out', hM', u1⟩ := hpost hP
        refine OutRel.bindL (ih gs (i + 1) h1 (pre ++ [w']) ws N (by simp [hi]) S1) ?_
        rintro gs' h2 ⟨ws', L', S2, hL', u2⟩
        obtain ⟨S3, hL3, u3⟩ := RowState.cons hnd hNlt hr nd' out' hM' u1 S2 hL' u2
        exact ⟨_, _, S3, hL3, u3⟩

theorem htruncate_rel {h : Heap} {p : Spot} {g : GoVal} {L : List Loc} (ho : Owns h p g L) :
    OutRel (Post h p L) (.ok (truncate g)) (htruncate p h) := by
  have ho' := ho
  cases g with
  | slice es sp =>
    obtain ⟨v, hread, hrep, nd, np⟩ := ho
    simp only [Rep] at hrep
    obtain ⟨l, be, vs, ws, af, M, N, rfl, hobj, hr1, hr2, rfl⟩ := hrep
    simp only [htruncate, hread, truncate]
    refine (Post.refl ho').store (M := l :: (M ++ N)) ?_ nd np (fun x hx => .inl hx) (by simp [hread])
    simp only [Rep]
    exact ⟨l, be, [], vs ++ ws, af, [], M ++ N, by simp, by rw [hobj]; simp, by simp [RepL], hr1.append hr2, by simp⟩
  | bytes b =>
    obtain ⟨l, off, cap, hread, -, hP⟩ := resetBytes_rel ho
    simp only [htruncate, hread, truncate]
    exact hP
  | _ =>
    obtain ⟨v, hread, hrep, nd, np⟩ := ho
    rcases hrep.leaf with ⟨_, h1, rfl⟩ | ⟨_, h1, rfl⟩ | ⟨_, h1, rfl⟩ | ⟨_, h1, rfl⟩ | ⟨_, h1, rfl⟩ | ⟨_, h1, rfl⟩ | ⟨_, h1, rfl⟩ | ⟨h1, rfl⟩ |
      ⟨es, vs, h1, rfl, hl⟩ | ⟨es, vs, h1, rfl, hl⟩ | ⟨g', l, u, K, h1, rfl, hd, hl⟩ | ⟨es, sp, l, off, cap, vs, K, h1, rfl, hd, hl⟩ |
      ⟨b, l, off, cap, h1, rfl, hd⟩ | ⟨kvs, l, ws, K, h1, rfl, hd, hl⟩ <;>
      first | (cases h1; done) | (simp only [htruncate, hread, truncate]; exact Post.refl ho')

/-- `Reset` of a declared type. -/
theorem hrunResetDecl_rel {M : Nat → Methods} {H : Nat → HMethods} (hM : ∀ n, MSim (M n) (H n)) (ir : ResetIR)
    {p : Spot} {h : Heap} {g : GoVal} {L : List Loc} (ho : Owns h p g L) :
    OutRel (Post h p L) (runResetDecl M ir g) (hrunResetDecl H ir p h) := by
  have ho' := ho
  cases ir with
  | const t =>
    simp only [runResetDecl, hrunResetDecl]
    exact resetConst_rel hM t ho
  | bytes => exact htruncate_rel ho
  | single x => exact hrunReset_rel hM x ho
  | list x =>
    cases x with
    | none => exact htruncate_rel ho
    | some n =>
      cases g with
      | nil =>
        obtain ⟨v, hread, hrep, nd, np⟩ := ho
        simp only [Rep] at hrep
        obtain ⟨rfl, rfl⟩ := hrep
        simp only [runResetDecl, hrunResetDecl, hread]
        exact Post.refl ho'
      | slice es sp =>
        obtain ⟨l, off, cap, hread, hP⟩ := resetSlice_rel (fun {p h g L} ho => (hM n).reset ho) ho
        simp only [runResetDecl, hrunResetDecl, hread]
        exact hP
      | _ =>
        obtain ⟨v, hread, hrep, nd, np⟩ := ho
        rcases hrep.leaf with ⟨_, h1, rfl⟩ | ⟨_, h1, rfl⟩ | ⟨_, h1, rfl⟩ | ⟨_, h1, rfl⟩ | ⟨_, h1, rfl⟩ | ⟨_, h1, rfl⟩ | ⟨_, h1, rfl⟩ | ⟨h1, rfl⟩ |
          ⟨es, vs, h1, rfl, hl⟩ | ⟨es, vs, h1, rfl, hl⟩ | ⟨g', l, u, K, h1, rfl, hd, hl⟩ | ⟨es, sp, l, off, cap, vs, K, h1, rfl, hd, hl⟩ |
          ⟨b, l, off, cap, h1, rfl, hd⟩ | ⟨kvs, l, ws, K, h1, rfl, hd, hl⟩ <;>
          first | (cases h1; done) | simp [runResetDecl, hrunResetDecl, hread]
  | map x =>
    cases g with
    | nil =>
      obtain ⟨v, hread, hrep, nd, np⟩ := ho
      simp only [Rep] at hrep
      obtain ⟨rfl, rfl⟩ := hrep
      simp only [runResetDecl, hrunResetDecl, hread]
      exact Post.refl ho'
    | map kvs =>
      obtain ⟨v, hread, hrep, nd, np⟩ := ho
      simp only [Rep] at hrep
      obtain ⟨l, ws, K, rfl, hobj, hr, rfl⟩ := hrep
      simp only [List.mem_cons, not_or] at np
      rw [List.nodup_cons] at nd
      simp only [runResetDecl, hrunResetDecl, hread, Heap.entries, hobj, Out.ok_bind, hr.length]
      have := resetEntries_rel (fun {p h g L} ho => hrunReset_rel hM x (p := p) (h := h) (g := g) (L := L) ho) kvs h [] ws K
        (by simpa using hobj) hr nd.2 nd.1
      refine OutRel.bindL this ?_
      rintro kvs' h' ⟨ws', K', ho2, hr2, nd2, out2, hK2, u⟩
      have hpK : p.loc ∉ K' := fun hm => by
        rcases hK2 _ hm with hm | hm
        · exact np.2 hm
        · exact absurd (read_lt hread) (Nat.not_lt.mpr hm)
      have hroot := u.other _ (read_lt hread) np.2 np.1
      refine ⟨l :: K', ⟨.map l, by rw [read_congr hroot, hread], ?_, List.nodup_cons.mpr ⟨out2, nd2⟩, ?_⟩, ?_, u.size, ?_, ?_⟩
      · simp only [Rep]
        exact ⟨l, ws', K', rfl, by simpa using ho2, hr2, rfl⟩
      · simp only [List.mem_cons, not_or]; exact ⟨np.1, hpK⟩
      · intro y hy
        simp only [List.mem_cons] at hy ⊢
        rcases hy with hy | hy
        · exact .inl (.inl hy)
        · rcases hK2 y hy with hy | hy
          · exact .inl (.inr hy)
          · exact .inr hy
      · intro y hy hn hp
        simp only [List.mem_cons, not_or] at hn
        exact u.other y hy hn.2 hn.1
      · exact ⟨.map l, by rw [write_same hread]; exact hroot⟩
    | _ =>
      obtain ⟨v, hread, hrep, nd, np⟩ := ho
      rcases hrep.leaf with ⟨_, h1, rfl⟩ | ⟨_, h1, rfl⟩ | ⟨_, h1, rfl⟩ | ⟨_, h1, rfl⟩ | ⟨_, h1, rfl⟩ | ⟨_, h1, rfl⟩ | ⟨_, h1, rfl⟩ | ⟨h1, rfl⟩ |
        ⟨es, vs, h1, rfl, hl⟩ | ⟨es, vs, h1, rfl, hl⟩ | ⟨g', l, u, K, h1, rfl, hd, hl⟩ | ⟨es, sp, l, off, cap, vs, K, h1, rfl, hd, hl⟩ |
        ⟨b, l, off, cap, h1, rfl, hd⟩ | ⟨kvs, l, ws, K, h1, rfl, hd, hl⟩ <;>
        first | (cases h1; done) | simp [runResetDecl, hrunResetDecl, hread]
  | struct xs =>
    cases g with
    | struct gs =>
      obtain ⟨v, hread, hrep, nd, np⟩ := ho
      simp only [Rep] at hrep
      obtain ⟨vs, rfl, hr⟩ := hrep
      simp only [runResetDecl, hrunResetDecl, hread, hr.length]
      have := hrunResets_rel hM (Row.structParts hread) xs gs 0 h [] vs L rfl
        ⟨⟨by simpa using hread, _, (write_same hread).symm⟩, hr, nd, np⟩
      refine OutRel.bindL this ?_
      rintro gs' h' ⟨ws', L', S, hL', u⟩
      refine ⟨L', ⟨.struct ws', by simpa using S.row.1, ?_, S.nodup, S.out⟩, hL', u.size, u.other, S.row.2⟩
      simp only [Rep]
      exact ⟨ws', rfl, S.rep⟩
    | _ =>
      obtain ⟨v, hread, hrep, nd, np⟩ := ho
      rcases hrep.leaf with ⟨_, h1, rfl⟩ | ⟨_, h1, rfl⟩ | ⟨_, h1, rfl⟩ | ⟨_, h1, rfl⟩ | ⟨_, h1, rfl⟩ | ⟨_, h1, rfl⟩ | ⟨_, h1, rfl⟩ | ⟨h1, rfl⟩ |
        ⟨es, vs, h1, rfl, hl⟩ | ⟨es, vs, h1, rfl, hl⟩ | ⟨g', l, u, K, h1, rfl, hd, hl⟩ | ⟨es, sp, l, off, cap, vs, K, h1, rfl, hd, hl⟩ |
        ⟨b, l, off, cap, h1, rfl, hd⟩ | ⟨kvs, l, ws, K, h1, rfl, hd, hl⟩ <;>
        first | (cases h1; done) | simp [runResetDecl, hrunResetDecl, hread]

end VJ
