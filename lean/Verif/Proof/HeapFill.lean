import Verif.Proof.HeapLoop

/-!
# Decoding in memory does what decoding trees does, if nothing is shared
-/

namespace VJ

/-- How a template run on a tree and one in memory correspond. -/
def TVRel (h : Heap) (p : Spot) (L : List Loc) : TV → HTV × Heap → Prop
  | .ret e fld, (.ret e', h') => e = e' ∧ Post h p L fld h'
  | .done (.error e) fld, (.done (.error e'), h') => e = e' ∧ Post h p L fld h'
  | .done (.ok val) fld, (.done (.ok w), h') => Post h p L fld h' ∧
      ∃ M, Rep h' val w M ∧ M.Nodup ∧ p.loc ∉ M ∧ ∀ l ∈ M, l ∈ L ∨ h.size ≤ l
  | _, _ => False

/-! ## Maps -/

theorem mapSet_rel {h : Heap} {key : Str} {g : GoVal} {v : HVal} {N : List Loc} (hv : Rep h g v N) (nd : N.Nodup) :
    ∀ {m : List (Str × GoVal)} {kvs : List (Str × HVal)} {K : List Loc}, RepKV h m kvs K → K.Nodup →
      (∀ l ∈ K, l ∉ N) →
      ∃ K', RepKV h (mapSet key g m) (kvSet key v kvs) K' ∧ K'.Nodup ∧ ∀ l ∈ K', l ∈ K ∨ l ∈ N
  | [], kvs, K, hr, nk, hd => by
    simp only [RepKV] at hr
    obtain ⟨rfl, rfl⟩ := hr
    refine ⟨N, ?_, nd, fun l hl => .inr hl⟩
    simp only [mapSet, kvSet, RepKV]
    exact ⟨v, [], N, [], rfl, hv, ⟨rfl, rfl⟩, by simp⟩
  | (k, g0) :: m, kvs, K, hr, nk, hd => by
    simp only [RepKV] at hr
    obtain ⟨v0, kvs', M0, N0, rfl, h1, h2, rfl⟩ := hr
    rw [List.nodup_append] at nk
    by_cases hk : k = key
    · refine ⟨N ++ N0, ?_, ?_, ?_⟩
      · simp only [mapSet, kvSet, hk, if_true, RepKV]
        exact ⟨v, kvs', N, N0, rfl, hv, h2, rfl⟩
      · rw [List.nodup_append]
        exact ⟨nd, nk.2.1, fun a ha b hb e => hd b (by simp [hb]) (e ▸ ha)⟩
      · intro l hl
        simp only [List.mem_append] at hl ⊢
        rcases hl with hl | hl
        · exact .inr hl
        · exact .inl (.inr hl)
    · obtain ⟨K', hr', nk', hK'⟩ := mapSet_rel hv nd h2 nk.2.1 (fun l hl => hd l (by simp [hl]))
      refine ⟨M0 ++ K', ?_, ?_, ?_⟩
      · simp only [mapSet, kvSet, hk, if_false, RepKV]
        exact ⟨v0, _, M0, K', rfl, h1, hr', rfl⟩
      · rw [List.nodup_append]
        refine ⟨nk.1, nk', fun a ha b hb e => ?_⟩
        subst e
        rcases hK' a hb with hb | hb
        · exact nk.2.2 a ha a hb rfl
        · exact hd a (by simp [ha]) hb
      · intro l hl
        simp only [List.mem_append] at hl ⊢
        rcases hl with hl | hl
        · exact .inl (.inl hl)
        · rcases hK' l hl with hl | hl
          · exact .inl (.inr hl)
          · exact .inr hl

/-- The map at `l` holds the entries `m`. -/
structure MapState (h : Heap) (l : Loc) (m : List (Str × GoVal)) (K : List Loc) : Prop where
  rep : ∃ kvs, h.objs[l]? = some (.map kvs) ∧ RepKV h m kvs K
  nodup : K.Nodup
  out : l ∉ K

theorem MapState.put {h0 h : Heap} {l : Loc} {m : List (Str × GoVal)} {K K0 N : List Loc} {g : GoVal} {v : HVal} (key : Str)
    (S : MapState h l m K) (hv : Rep h g v N) (nd : N.Nodup) (hl : l < h0.size)
    (hK : ∀ x ∈ K, x ∈ K0 ∨ h0.size ≤ x) (hN : ∀ x ∈ N, h0.size ≤ x ∧ x ∉ K) (u : RowUpd h0 h l K0) :
    ∃ h' K', h.mapPut l key v = .ok h' ∧ MapState h' l (mapSet key g m) K' ∧
      (∀ x ∈ K', x ∈ K0 ∨ h0.size ≤ x) ∧ RowUpd h0 h' l K0 := by
  obtain ⟨kvs, ho, hr⟩ := S.rep
  have hlN : l ∉ N := fun hm => absurd hl (Nat.not_lt.mpr (hN l hm).1)
  obtain ⟨K', hr', nk', hK'⟩ := mapSet_rel (key := key) hv nd hr S.nodup (fun x hx hn => (hN x hn).2 hx)
  have hlK' : l ∉ K' := fun hm => by
    rcases hK' l hm with hm | hm
    · exact S.out hm
    · exact hlN hm
  have hls := lt_size ho
  refine ⟨⟨h.objs.set l (.map (kvSet key v kvs))⟩, K', by simp [Heap.mapPut, ho], ⟨⟨kvSet key v kvs, ?_, ?_⟩, nk', hlK'⟩, ?_, ?_, ?_⟩
  · unfold Heap.size at hls; simp [hls]
  · refine hr'.frame fun x hx => ?_
    simp only
    rw [List.getElem?_set_ne (fun e : l = x => hlK' (e ▸ hx))]
  · intro x hx
    rcases hK' x hx with hx | hx
    · exact hK x hx
    · exact .inr (hN x hx).1
  · have := u.size; unfold Heap.size at *; simpa using this
  · intro x hx hn hp
    simp only
    rw [List.getElem?_set_ne (fun e : l = x => hp e.symm)]
    exact u.other x hx hn hp

theorem hconvT_rel [Ext] {M : Nat → Methods} {H : Nat → HMethods} (hM : ∀ n, MSim (M n) (H n)) (t : TExpr)
    {h : Heap} {g : GoVal} {v : HVal} {L : List Loc} (hr : Rep h g v L) :
    OutRel (fun g' v' => Rep h g' v' L) (convT M t g) (hconvT H t v) := by
  cases t with
  | prim p =>
    simp only [convT, hconvT, OutRel.ok]
    cases g <;> simp only [Rep] at hr
    case int => obtain ⟨rfl, rfl⟩ := hr; cases p <;> simp [Prim.conv, Prim.hconv, Rep]
    case float => obtain ⟨rfl, rfl⟩ := hr; cases p <;> simp [Prim.conv, Prim.hconv, Rep]
    case ptr =>
      obtain ⟨l, w, M', rfl, hr⟩ := hr
      cases p <;> (simp only [Prim.conv, Prim.hconv, Rep]; exact ⟨l, w, M', rfl, hr⟩)
    case slice =>
      obtain ⟨l, be, vs, ws, af, M', N', rfl, hr⟩ := hr
      cases p <;> (simp only [Prim.conv, Prim.hconv, Rep]; exact ⟨l, be, vs, ws, af, M', N', rfl, hr⟩)
    case bytes =>
      obtain ⟨l, be, ws, af, rfl, hr⟩ := hr
      cases p <;> (simp only [Prim.conv, Prim.hconv, Rep]; exact ⟨l, be, ws, af, rfl, hr⟩)
    case map =>
      obtain ⟨l, ws, M', rfl, hr⟩ := hr
      cases p <;> (simp only [Prim.conv, Prim.hconv, Rep]; exact ⟨l, ws, M', rfl, hr⟩)
    case arr =>
      obtain ⟨vs, rfl, hr⟩ := hr
      cases p <;> (simp only [Prim.conv, Prim.hconv, Rep]; exact ⟨vs, rfl, hr⟩)
    case struct =>
      obtain ⟨vs, rfl, hr⟩ := hr
      cases p <;> (simp only [Prim.conv, Prim.hconv, Rep]; exact ⟨vs, rfl, hr⟩)
    all_goals (obtain ⟨rfl, rfl⟩ := hr; cases p <;> simp [Prim.conv, Prim.hconv, Rep])
  | named n => exact (hM n).conv hr
  | sel n => exact (hM n).conv hr
  | _ => exact hr

theorem RepL.replicate {g : GoVal} {v : HVal} {h : Heap} (hz : Rep h g v []) : ∀ n : Nat,
    RepL h (List.replicate n g) (List.replicate n v) []
  | 0 => by simp [RepL]
  | n + 1 => by
    simp only [List.replicate_succ, RepL]
    exact ⟨v, _, [], [], rfl, hz, RepL.replicate hz n, rfl⟩

theorem hzeroT_rel {M : Nat → Methods} {H : Nat → HMethods} (hM : ∀ n, MSim (M n) (H n)) :
    ∀ t : TExpr, OutRel (fun g v => ∀ h, Rep h g v []) (zeroT M t) (hzeroT H t)
  | .prim p => by intro h; cases p <;> simp [Prim.zero, Prim.hzero, Rep]
  | .named n => (hM n).zero
  | .sel n => (hM n).zero
  | .time => by intro h; simp [Rep]
  | .uuid => by intro h; simp [Rep]
  | .structT => trivial
  | .star _ => by intro h; simp [Rep]
  | .slice _ => by intro h; simp [Rep]
  | .map _ => by intro h; simp [Rep]
  | .array n t => by
    unfold zeroT hzeroT
    split
    · intro h; simp [Rep]
    · refine OutRel.bind (hzeroT_rel hM t) fun g v hz => ?_
      intro h
      simp only [Rep]
      exact ⟨_, rfl, RepL.replicate (hz h) n⟩

theorem hfillT_rel {M : Nat → Methods} {H : Nat → HMethods} (hM : ∀ n, MSim (M n) (H n)) (t : TExpr)
    {h : Heap} {p : Spot} {g : GoVal} {L : List Loc} (v : JV) (ho : Owns h p g L) :
    OutRel (fun a b => a.1 = b.1 ∧ Post h p L a.2 b.2) (fillT M t v g) (hfillT H t v p h) := by
  cases t with
  | named n => exact (hM n).fill v ho
  | sel n => exact (hM n).fill v ho
  | _ => trivial

/-- A new variable. -/
theorem Owns.var {h : Heap} {g : GoVal} {v : HVal} (hz : ∀ h, Rep h g v []) :
    Owns (h.alloc (.cells [v])) (.cell h.size 0) g [] :=
  ⟨v, by simp [Heap.read, Spot.cell, HVal.at], hz _, by simp, by simp⟩

/-- What happens to a new variable leaves everything else alone. -/
theorem Post.var {h h' : Heap} {o : Obj} {g : GoVal} (hp : Post (h.alloc o) (.cell h.size 0) [] g h') :
    h.size ≤ h'.size ∧ ∀ l, l < h.size → h'.objs[l]? = h.objs[l]? := by
  obtain ⟨L', -, -, u⟩ := hp
  refine ⟨?_, fun l hl => ?_⟩
  · have := u.size; simp at this; omega
  · rw [u.other l (by simp; omega) (by simp) (by simp [Spot.cell]; omega), objs_alloc_lt hl]

theorem mapLoop_rel [Ext] {M : Nat → Methods} {H : Nat → HMethods} (hM : ∀ n, MSim (M n) (H n)) (star : Bool) (val : TExpr)
    {x : JV → Out TV} {hx : JV → Heap → Out (HTV × Heap)}
    (hX : ∀ v h, OutRel (TVRel (h.alloc (.cells [.nil])) (.cell h.size 0) []) (x v) (hx v h)) {h0 : Heap} {l : Loc}
    (hl : l < h0.size) (K0 : List Loc) :
    ∀ (kvs : List (Str × JV)) (m : List (Str × GoVal)) (h : Heap) (K : List Loc),
      MapState h l m K → (∀ x ∈ K, x ∈ K0 ∨ h0.size ≤ x) → RowUpd h0 h l K0 →
      OutRel (fun a b => a.1 = b.1 ∧ ∃ K', MapState b.2 l a.2 K' ∧ (∀ x ∈ K', x ∈ K0 ∨ h0.size ≤ x) ∧ RowUpd h0 b.2 l K0)
        (mapLoop M star val x kvs m) (hmapLoop H star val hx l kvs h) := by
  intro kvs
  induction kvs with
  | nil => intro m h K S hK u; exact ⟨rfl, K, S, hK, u⟩
  | cons kv rest ih =>
    obtain ⟨key, v⟩ := kv
    intro m h K S hK u
    unfold mapLoop hmapLoop
    split
    · obtain ⟨h', K', he, S', hK', u'⟩ := S.put (g := .nil) (v := .nil) (N := []) (h0 := h0) (K0 := K0) key
        (by simp [Rep]) (by simp) hl hK (by simp) u
      simp only [he, Out.ok_bind]
      exact ih _ h' K' S' hK' u'
    · refine OutRel.bind (hX v h) ?_
      rintro t ⟨t', h1⟩ ht
      -- the state of the map is the same in the memory the template leaves
      have later : h.size ≤ h1.size → (∀ x, x < h.size → h1.objs[x]? = h.objs[x]?) → MapState h1 l m K ∧ RowUpd h0 h1 l K0 := by
        intro hz hs
        obtain ⟨⟨kvs, ho, hr⟩, nd, out⟩ := S
        refine ⟨⟨⟨kvs, by rw [hs l (lt_size ho), ho], hr.frame fun x hx => hs x (hr.lt x hx)⟩, nd, out⟩, ?_, ?_⟩
        · exact Nat.le_trans u.size hz
        · intro x hx hn hp
          rw [hs x (Nat.lt_of_lt_of_le hx u.size), u.other x hx hn hp]
      match t, t', ht with
      | .ret _ _, .ret _, _ => trivial
      | .done (.error e) _, .done (.error e'), ht =>
        obtain ⟨rfl, hp⟩ := ht
        obtain ⟨hz, hs⟩ := hp.var
        obtain ⟨S1, u1⟩ := later hz hs
        exact ⟨rfl, K, S1, hK, u1⟩
      | .done (.ok w) _, .done (.ok w'), ht =>
        obtain ⟨hp, N, hr, nd, -, hN⟩ := ht
        obtain ⟨hz, hs⟩ := hp.var
        obtain ⟨S1, u1⟩ := later hz hs
        refine OutRel.bind (hconvT_rel hM val hr) ?_
        intro g2 v2 hr2
        have hN' : ∀ x ∈ N, h.size ≤ x := by
          intro x hx
          have := hN x hx
          simp at this
          omega
        have hKlt : ∀ x ∈ K, x < h.size := by
          obtain ⟨kvs, ho, hr⟩ := S.rep
          exact hr.lt
        have hsz : h0.size ≤ h.size := u.size
        cases star with
        | false =>
          obtain ⟨h', K', he, S', hK', u'⟩ := S1.put (h0 := h0) (K0 := K0) key hr2 nd hl hK
            (fun x hx => ⟨Nat.le_trans hsz (hN' x hx), fun hk => absurd (hKlt x hk) (Nat.not_lt.mpr (hN' x hx))⟩) u1
          simp only [he, Out.ok_bind, Bool.false_eq_true, if_false]
          exact ih _ h' K' S' hK' u'
        | true =>
          have hs2 : ∀ x, x < h1.size → (h1.alloc (.cells [v2])).objs[x]? = h1.objs[x]? := fun x hx => objs_alloc_lt hx
          have S2 : MapState (h1.alloc (.cells [v2])) l m K := by
            obtain ⟨⟨kvs, ho, hr⟩, nd, out⟩ := S1
            exact ⟨⟨kvs, by rw [hs2 l (lt_size ho), ho], hr.frame fun x hx => hs2 x (hr.lt x hx)⟩, nd, out⟩
          have u2 : RowUpd h0 (h1.alloc (.cells [v2])) l K0 := by
            refine ⟨by have := u1.size; simp; omega, fun x hx hn hp => ?_⟩
            rw [hs2 x (Nat.lt_of_lt_of_le hx u1.size), u1.other x hx hn hp]
          have hr3 : Rep (h1.alloc (.cells [v2])) (.ptr g2) (.ptr h1.size) (h1.size :: N) := by
            simp only [Rep]
            exact ⟨_, v2, N, rfl, by simp, hr2.frame fun x hx => hs2 x (hr2.lt x hx), rfl⟩
          have nd3 : (h1.size :: N).Nodup := by
            rw [List.nodup_cons]
            exact ⟨fun hm => absurd (hr2.lt _ hm) (Nat.lt_irrefl _), nd⟩
          obtain ⟨h', K', he, S', hK', u'⟩ := S2.put (h0 := h0) (K0 := K0) key hr3 nd3 hl hK
            (fun x hx => by
              rcases List.mem_cons.mp hx with rfl | hx
              · exact ⟨u1.size, fun hk => absurd (hKlt _ hk) (Nat.not_lt.mpr hz)⟩
              · exact ⟨Nat.le_trans hsz (hN' x hx), fun hk => absurd (hKlt x hk) (Nat.not_lt.mpr (hN' x hx))⟩) u2
          simp only [he, Out.ok_bind, if_true]
          exact ih _ h' K' S' hK' u'

end VJ
