import Verif.Proof.Updates
import Verif.Props.Text
import Verif.Props.Sample

/-!
# C67: documents about different members
-/

set_option linter.unusedSectionVars false

namespace VJ
section
variable [Ext] {Γ : Env} {S : Nat → Prop}

/-- **C67** Decoding two documents that have no member in common one after the other is decoding the document with the
members of both: one succeeds if and only if the other does, with the same result.  For struct types, with the
structs embedded in them, in which no field is required or has a default. -/
theorem C67_two (hS : UpdateSet Γ S) {n : Nat} (hn : S n) {a b : List (Str × JV)} (hab : NoCommonKey a b) {old new : GoVal} :
    (∃ mid, Fills Γ n (.obj a) old none mid ∧ Fills Γ n (.obj b) mid none new) ↔ Fills Γ n (.obj (a ++ b)) old none new := by
  constructor
  · rintro ⟨mid, ⟨k1, h1⟩, k2, h2⟩
    refine ⟨max k1 k2, (fill_two hS hab _ n old new hn).2 ⟨mid, ?_, ?_⟩⟩
    · exact ((methods_mono Γ (Nat.le_max_left _ _) n).fill _ _).eq_of_ok h1
    · exact ((methods_mono Γ (Nat.le_max_right _ _) n).fill _ _).eq_of_ok h2
  · rintro ⟨k, h⟩
    obtain ⟨mid, h1, h2⟩ := (fill_two hS hab k n old new hn).1 h
    exact ⟨mid, ⟨k, h1⟩, ⟨k, h2⟩⟩

/-- **C67** for any number of documents -/
theorem C67_together (hS : UpdateSet Γ S) {n : Nat} (hn : S n) {ds : List (List (Str × JV))} (hne : ds ≠ [])
    (hp : ds.Pairwise NoCommonKey) {old new : GoVal} : AppliesAll Γ n ds old new ↔ Fills Γ n (.obj ds.flatten) old none new := by
  induction ds generalizing old with
  | nil => exact absurd rfl hne
  | cons d ds ih =>
    obtain ⟨h1, h2⟩ := List.pairwise_cons.1 hp
    cases ds with
    | nil =>
      simp only [List.flatten_cons, List.flatten_nil, List.append_nil]
      constructor
      · intro h
        cases h with
        | one h => exact h
        | cons _ h => cases h
      · exact .one
    | cons d' ds =>
      have hab : NoCommonKey d (d' :: ds).flatten := by
        intro kv hk kv' hk'
        obtain ⟨l, hl, hm⟩ := List.mem_flatten.1 hk'
        exact h1 l hl kv hk kv' hm
      rw [List.flatten_cons, ← C67_two hS hn hab]
      constructor
      · intro h
        cases h with
        | cons h hs => exact ⟨_, h, (ih (by simp) h2).1 hs⟩
      · rintro ⟨mid, h, hs⟩
        exact .cons h ((ih (by simp) h2).2 hs)

/-- **C67** The order in which they are decoded does not matter. -/
theorem C67_any_order (hS : UpdateSet Γ S) {n : Nat} (hn : S n) {ds ds' : List (List (Str × JV))} (hperm : ds.Perm ds')
    (hp : ds.Pairwise NoCommonKey) {old new : GoVal} (h : AppliesAll Γ n ds old new) : AppliesAll Γ n ds' old new := by
  have hne : ds ≠ [] := by intro he; subst he; cases h
  have hne' : ds' ≠ [] := by intro he; subst he; exact hne hperm.eq_nil
  have hp' : ds'.Pairwise NoCommonKey := hp.perm hperm (fun h => h.symm)
  rw [C67_together hS hn hne' hp']
  rw [C67_together hS hn hne hp] at h
  -- the two documents have the same members, and those of the same name in the same order
  have hag : ∀ {ds ds' : List (List (Str × JV))}, ds.Perm ds' → ds.Pairwise NoCommonKey → ∀ key, JV.lookup key ds.flatten = JV.lookup key ds'.flatten := by
    intro ds ds' hperm
    induction hperm with
    | nil => intros; rfl
    | cons d _ ih =>
      intro hp key
      rw [List.flatten_cons, List.flatten_cons, lookup_append, lookup_append, ih (List.pairwise_cons.1 hp).2]
    | swap d d' l =>
      intro hp key
      simp only [List.flatten_cons, lookup_append, ← Option.or_assoc]
      congr 1
      cases h1 : JV.lookup key d with
      | none => simp
      | some v =>
        cases h2 : JV.lookup key d' with
        | none => simp
        | some v' =>
          have := (List.pairwise_cons.1 hp).1 d (by simp) (key, v') (lookup_mem h2) (key, v) (lookup_mem h1)
          exact absurd rfl this
    | trans h1 _ ih1 ih2 =>
      intro hp key
      exact (ih1 hp key).trans (ih2 (hp.perm h1 (fun h => h.symm)) key)
  have hocc : ∀ key, occurrences key ds.flatten = occurrences key ds'.flatten := fun key => (hperm.flatten.filter _).length_eq
  obtain ⟨k, h⟩ := h
  have := fill_agree hS.embedding (K := fun _ => True) (fun _ _ _ _ _ => Or.inl fun _ => trivial)
    (v := .obj ds.flatten) (v' := .obj ds'.flatten) ⟨_, _, rfl, rfl, fun key _ => ⟨hocc key, hag hperm hp key⟩⟩ k n old hn
  rw [h] at this
  cases h2 : (Γ.methods k n).fill (.obj ds'.flatten) old with
  | ok p =>
    obtain ⟨e, s⟩ := p
    rw [h2] at this
    obtain ⟨rfl, he⟩ := this
    rw [he.1 rfl] at h2
    exact ⟨k, h2⟩
  | _ => rw [h2] at this; simp [SameUpToError] at this

/-- **C67 on texts** -/
theorem C67_texts (hS : UpdateSet Γ S) {n : Nat} (hn : S n) {a b : List (Str × JV)} (hab : NoCommonKey a b) {ta tb tab : Str}
    (ha : Document (.obj a) ta) (hb : Document (.obj b) tb) (h : Document (.obj (a ++ b)) tab) (hd : DepthLe 300 (.obj (a ++ b)))
    {old new : GoVal} :
    (∃ mid, Unmarshals Γ n ta old none mid ∧ Unmarshals Γ n tb mid none new) ↔ Unmarshals Γ n tab old none new := by
  have hda : DepthLe 300 (.obj a) := by
    cases hd with
    | obj h => exact .obj (fun kv hk => h kv (List.mem_append_left _ hk))
  have hdb : DepthLe 300 (.obj b) := by
    cases hd with
    | obj h => exact .obj (fun kv hk => h kv (List.mem_append_right _ hk))
  simp only [unmarshals_document ha hda, unmarshals_document hb hdb, unmarshals_document h hd]
  exact C67_two hS hn hab

end

/-! ## Examples -/

namespace Examples
open Sample
attribute [local instance] Sample.ext

/-- Trip embeds Base -/
theorem trip_updates : UpdateSet Γ (fun n => n = 50 ∨ n = 2) := by
  refine ⟨?_, ?_⟩
  · rintro n (rfl | rfl)
    · refine ⟨false, trip, rfl, ?_⟩
      intro fd hfd hname
      simp only [trip, List.mem_cons, List.not_mem_nil, or_false] at hfd
      rcases hfd with rfl | rfl | rfl | rfl | rfl | rfl | rfl | rfl | rfl
      · exact ⟨2, rfl, Or.inr rfl⟩
      all_goals simp [tag, tagOpt, str] at hname
    · refine ⟨false, base, rfl, ?_⟩
      intro fd hfd hname
      simp only [base, List.mem_cons, List.not_mem_nil, or_false] at hfd
      subst hfd
      simp [tag, str] at hname
  · rintro n strict fields fd (rfl | rfl) hd hf <;> cases hd
    · simp only [trip, List.mem_cons, List.not_mem_nil, or_false] at hf
      rcases hf with rfl | rfl | rfl | rfl | rfl | rfl | rfl | rfl | rfl <;> exact ⟨by decide, by decide⟩
    · simp only [base, List.mem_cons, List.not_mem_nil, or_false] at hf
      subst hf
      exact ⟨by decide, by decide⟩

def upd1 : List (Str × JV) := [(str "rev", .num (str "3")), (str "l", .arr [.obj [(str "rev", .num (str "4"))]])]
def upd2 : List (Str × JV) := [(str "t", .num (str "5")), (str "blob", .str (str "AQI=")), (str "n", .str (str "x"))]

def trip0 : GoVal := .struct [.struct [.int 0], .int 0, .nil, .nil, .uuid (List.replicate 16 0), .nil, .time .zero, .nil, .nil]

theorem upd_disjoint : NoCommonKey upd1 upd2 := by
  intro kv h kv' h'
  simp only [upd1, upd2, List.mem_cons, List.not_mem_nil, or_false] at h h'
  rcases h with rfl | rfl <;> rcases h' with rfl | rfl | rfl <;> decide

set_option maxRecDepth 200000 in
theorem upd_both : ∃ new, Fills Γ 50 (.obj (upd1 ++ upd2)) trip0 none new ∧ ∃ r l rest, new = .struct (.struct [.int r] :: .int 5 :: l :: rest) ∧ r = 3 :=
  ⟨_, ⟨6, rfl⟩, _, _, _, rfl, rfl⟩

/-- C67 on Trip: the one document after the other, in either order -/
example : ∃ new mid mid', Fills Γ 50 (.obj (upd1 ++ upd2)) trip0 none new ∧ Fills Γ 50 (.obj upd1) trip0 none mid ∧ Fills Γ 50 (.obj upd2) mid none new ∧
    Fills Γ 50 (.obj upd2) trip0 none mid' ∧ Fills Γ 50 (.obj upd1) mid' none new := by
  obtain ⟨new, h, _⟩ := upd_both
  obtain ⟨mid, h1, h2⟩ := (C67_two trip_updates (Or.inl rfl) upd_disjoint).2 h
  have hall : AppliesAll Γ 50 [upd1, upd2] trip0 new := .cons h1 (.one h2)
  have := C67_any_order trip_updates (Or.inl rfl) (.swap upd2 upd1 []) (by simpa using upd_disjoint) hall
  cases this with
  | cons h3 h4 =>
    cases h4 with
    | one h4 => exact ⟨new, mid, _, h, h1, h2, h3, h4⟩
    | cons _ h => cases h

set_option maxRecDepth 200000 in
/-- **C67 does not hold for fields with a default**: after {"a":1} the document {} puts the default 7 in place of 1. -/
theorem C67_default_comes_back : Fills Γ 51 (.obj [(str "a", .num (str "1"))]) (.struct [.int 0]) none (.struct [.int 1]) ∧
    Fills Γ 51 (.obj []) (.struct [.int 1]) none (.struct [.int 7]) := ⟨⟨5, rfl⟩, ⟨5, rfl⟩⟩

/-- type Part struct { A int8 `json:"a"`; B int8 `json:"b"` }; type Whole struct { *Part } -/
def pointing : Env where
  decl n := match n with
    | 0 => some (.struct false [⟨.star (.named 1), {}⟩])
    | 1 => some (.struct false [⟨.prim .int8, tag "a"⟩, ⟨.prim .int8, tag "b"⟩])
    | _ => none
  ext := fun _ => .loop

set_option maxRecDepth 200000 in
/-- **C67 does not hold for embedded pointers**: the second document makes a new struct, and what the first one set is
gone. -/
theorem C67_embedded_pointer_forgets :
    Fills pointing 0 (.obj [(str "a", .num (str "1"))]) (.struct [.nil]) none (.struct [.ptr (.struct [.int 1, .int 0])]) ∧
    Fills pointing 0 (.obj [(str "b", .num (str "2"))]) (.struct [.ptr (.struct [.int 1, .int 0])]) none (.struct [.ptr (.struct [.int 0, .int 2])]) ∧
    Fills pointing 0 (.obj [(str "a", .num (str "1")), (str "b", .num (str "2"))]) (.struct [.nil]) none (.struct [.ptr (.struct [.int 1, .int 2])]) :=
  ⟨⟨6, rfl⟩, ⟨6, rfl⟩, ⟨6, rfl⟩⟩

end Examples

end VJ
