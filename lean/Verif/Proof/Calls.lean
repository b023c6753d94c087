import Verif.Proof.HeapMade
import Verif.Spec.Calls

/-!
# Lemmas: writing beside a variable
-/

namespace VJ

theorem at_put_other {p : List Nat} (w : HVal) : ∀ {q : List Nat} {v : HVal}, ¬ p <+: q → ¬ q <+: p → (v.put p w).at q = v.at q := by
  induction p with
  | nil => intro q v h1; exact absurd List.nil_prefix h1
  | cons i p ih =>
    intro q v h1 h2
    cases q with
    | nil => exact absurd List.nil_prefix h2
    | cons j q =>
      by_cases hij : i = j
      · subst hij
        have h1' : ¬ p <+: q := fun h => h1 (List.cons_prefix_cons.mpr ⟨rfl, h⟩)
        have h2' : ¬ q <+: p := fun h => h2 (List.cons_prefix_cons.mpr ⟨rfl, h⟩)
        cases v <;> simp only [HVal.put, HVal.at]
        all_goals
          split
          · rename_i hs
            rw [HVal.at, getElem?_set_self_of hs, hs]
            exact ih h1' h2'
          · rfl
      · cases v <;> simp only [HVal.put, HVal.at]
        all_goals
          split
          · rw [HVal.at, List.getElem?_set_ne hij]
          · rfl

theorem read_write_other {h : Heap} {p q : Spot} {w : HVal} (hb : Beside p q) : (h.write p w).read q = h.read q := by
  by_cases hl : p.loc = q.loc
  · unfold Heap.write
    split
    · rename_i vs hc
      split
      · rename_i u hu
        have hlt := lt_size hc
        unfold Heap.read
        rw [← hl, hc]
        simp only [List.getElem?_set_self hlt]
        rcases hb with hb | hb | hb
        · exact absurd hl hb
        · rw [List.getElem?_set_ne hb]
        · by_cases hi : p.idx = q.idx
          · rw [← hi, getElem?_set_self_of hu, hu]
            exact at_put_other w hb.1 hb.2
          · rw [List.getElem?_set_ne hi]
      · rfl
    · rfl
  · exact read_congr (objs_write_ne fun he => hl he.symm)

theorem Beside.symm {p q : Spot} (h : Beside p q) : Beside q p := by
  rcases h with h | h | h
  · exact .inl h.symm
  · exact .inr (.inl h.symm)
  · exact .inr (.inr ⟨h.2, h.1⟩)

/-- What one variable holds after a call on another. -/
theorem Post.beside {h h' : Heap} {p q : Spot} {L M : List Loc} {g g2 : GoVal} (hp : Post h p L g h') (hq : Owns h q g2 M)
    (hb : Beside p q) (hpM : p.loc ∉ M) (hqL : q.loc ∉ L) (hd : ∀ l ∈ M, l ∉ L) : Owns h' q g2 M := by
  obtain ⟨L', -, -, u⟩ := hp
  obtain ⟨x, hr, hw, nd, np⟩ := hq
  refine ⟨x, ?_, hw.frame fun l hl => u.other l (hw.lt l hl) (hd l hl) fun he => hpM (he ▸ hl), nd, np⟩
  have hlt := read_lt hr
  by_cases hl : p.loc = q.loc
  · obtain ⟨w, hroot⟩ := u.root
    rw [hl] at hroot
    rw [read_congr (h := h.write p w) hroot, read_write_other hb, hr]
  · rw [read_congr (u.other _ hlt hqL fun he => hl he.symm), hr]

/-- Variables that share nothing share nothing after a call on one of them. -/
theorem Apart.step {ι : Type} [DecidableEq ι] {h h' : Heap} {var : ι → Spot} {tree : ι → GoVal} {L : ι → List Loc} (ha : Apart h var tree L)
    (i : ι) {g : GoVal} (hp : Post h (var i) (L i) g h') :
    ∃ L', Apart h' var (fun j => if j = i then g else tree j) L' := by
  obtain ⟨M, hM, hsub, u⟩ := id hp
  have hnew : ∀ j l, l ∈ L j → j ≠ i → l ∉ M := by
    intro j l hl hj hm
    rcases hsub l hm with h1 | h1
    · exact ha.disjoint j i hj l hl h1
    · obtain ⟨x, -, hw, -⟩ := ha.owns j
      exact absurd (hw.lt l hl) (Nat.not_lt.mpr h1)
  have hvar : ∀ j, (var j).loc ∉ M := by
    intro j hm
    rcases hsub _ hm with h1 | h1
    · exact ha.outside j i h1
    · obtain ⟨x, hr, -⟩ := ha.owns j
      exact absurd (read_lt hr) (Nat.not_lt.mpr h1)
  refine ⟨fun j => if j = i then M else L j, ?_, ha.beside, ?_, ?_⟩
  · intro j
    by_cases hj : j = i
    · subst hj; simpa using hM
    · simp only [hj, if_false]
      exact hp.beside (ha.owns j) (ha.beside i j fun he => hj he.symm) (ha.outside i j) (ha.outside j i)
        (ha.disjoint j i hj)
  · intro j k
    by_cases hk : k = i
    · simp only [hk, if_true]; exact hvar j
    · simp only [hk, if_false]; exact ha.outside j k
  · intro j k hjk l hl
    by_cases hj : j = i
    · have hk : k ≠ i := fun he => hjk (hj.trans he.symm)
      simp only [hj, if_true] at hl
      simp only [hk, if_false]
      exact fun hl' => hnew k l hl' hk hl
    · simp only [hj, if_false] at hl
      by_cases hk : k = i
      · simp only [hk, if_true]; exact hnew j l hl hj
      · simp only [hk, if_false]; exact ha.disjoint j k hjk l hl

end VJ
