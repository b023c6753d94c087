import Verif.Model.Buffers

/-!
# The invariant of concurrent encodes (C72)
-/

namespace VJ

section
variable {α E : Type}

@[simp] theorem setAt_same {β : Type} (f : Nat → β) (n : Nat) (a : β) : setAt f n a n = a := by
  simp [setAt]

theorem setAt_ne {β : Type} (f : Nat → β) {n m : Nat} (a : β) (h : m ≠ n) : setAt f n a m = f m := by
  simp [setAt, h]

/-- the bytes of several slices -/
def texts (mem : Nat → List α) (ps : List GoSlice) : List α := ps.flatMap (·.read mem)

/-- the slices lie inside their chunks -/
def Inside (mem : Nat → List α) (ps : List GoSlice) : Prop := ∀ p ∈ ps, p.len ≤ (mem p.chunk).length

/-- the length of several slices -/
def total (ps : List GoSlice) : Nat := ps.foldr (fun q n => q.len + n) 0

/-- What holds of a call at any time. -/
def EncOk (mem : Nat → List α) (body : Writing α E) : EncPc α E → Prop
  | .writing b todo => Inside mem (b.bufs ++ b.buf.toList) ∧ (b.buf = none ↔ b.toPool = none) ∧
      body.alone = (texts mem (b.bufs ++ b.buf.toList) ++ todo.alone.1, todo.alone.2)
  | .building ret todo last _ => Inside mem (ret :: todo ++ last.toList) ∧
      ret.len + total (todo ++ last.toList) ≤ (mem ret.chunk).length ∧
      body.alone = (texts mem (ret :: todo ++ last.toList), none)
  | .giving ret _ todo last _ => Inside mem (ret :: todo ++ last.toList) ∧
      ret.len + total (todo ++ last.toList) ≤ (mem ret.chunk).length ∧
      body.alone = (texts mem (ret :: todo ++ last.toList), none)
  | .closing ret _ => Inside mem [ret] ∧ body.alone = (ret.read mem, none)
  | .done ret touched => body.alone.2 = none ∧
      (touched = false → Inside mem ret.toList ∧ body.alone.1 = texts mem ret.toList)
  | .failed e => body.alone.2 = some e

/-- What holds at any time. -/
structure EncInv (calls : Nat → Writing α E) (w : EncWorld α E) : Prop where
  own : ∀ t, (w.pc t).owns.Nodup
  apart : ∀ {t u c}, c ∈ (w.pc t).owns → c ∈ (w.pc u).owns → t = u
  free : ∀ {t c}, c ∈ w.pool → c ∉ (w.pc t).owns
  nodup : w.pool.Nodup
  ownMade : ∀ {t c}, c ∈ (w.pc t).owns → c < w.made
  poolMade : ∀ {c}, c ∈ w.pool → c < w.made
  ok : ∀ t, EncOk w.mem (calls t) (w.pc t)

theorem inside_congr {mem mem' : Nat → List α} {ps : List GoSlice}
    (h : ∀ p ∈ ps, mem' p.chunk = mem p.chunk) (hi : Inside mem ps) : Inside mem' ps := by
  intro p hp
  rw [h p hp]
  exact hi p hp

theorem texts_congr {mem mem' : Nat → List α} {ps : List GoSlice}
    (h : ∀ p ∈ ps, mem' p.chunk = mem p.chunk) : texts mem' ps = texts mem ps := by
  unfold texts
  rw [List.flatMap_def, List.flatMap_def]
  congr 1
  refine List.map_congr_left fun p hp => ?_
  simp [GoSlice.read, h p hp]

theorem texts_append (mem : Nat → List α) (ps qs : List GoSlice) :
    texts mem (ps ++ qs) = texts mem ps ++ texts mem qs := by
  simp [texts]

theorem total_append (ps qs : List GoSlice) : total (ps ++ qs) = total ps + total qs := by
  induction ps with
  | nil => simp [total]
  | cons p ps ih => simp only [total, List.cons_append, List.foldr_cons] at ih ⊢; omega

/-- What holds of a call depends on its own chunks only. -/
theorem encOk_frame {mem mem' : Nat → List α} {body : Writing α E} {pc : EncPc α E}
    (h : ∀ c ∈ pc.owns, mem' c = mem c) (hok : EncOk mem body pc) : EncOk mem' body pc := by
  cases pc with
  | writing b todo =>
    have hp : ∀ p ∈ b.bufs ++ b.buf.toList, mem' p.chunk = mem p.chunk := by
      intro p hp
      refine h _ ?_
      simp only [EncPc.owns, List.mem_append, List.mem_map, Option.mem_toList, Option.map_eq_some_iff] at hp ⊢
      rcases hp with hp | hp
      · exact .inl (.inl ⟨p, hp, rfl⟩)
      · exact .inl (.inr ⟨p, hp, rfl⟩)
    obtain ⟨h1, h2, h3⟩ := hok
    exact ⟨inside_congr hp h1, h2, by rw [texts_congr hp]; exact h3⟩
  | building ret todo last toPool =>
    have hp : ∀ p ∈ ret :: todo ++ last.toList, mem' p.chunk = mem p.chunk := by
      intro p hp
      refine h _ ?_
      simp only [EncPc.owns, List.mem_append, List.mem_cons, List.mem_map, Option.mem_toList,
        Option.map_eq_some_iff] at hp ⊢
      rcases hp with (rfl | hp) | hp
      · exact .inl (.inl (.inl rfl))
      · exact .inl (.inl (.inr ⟨p, hp, rfl⟩))
      · exact .inl (.inr ⟨p, hp, rfl⟩)
    obtain ⟨h1, h2, h3⟩ := hok
    exact ⟨inside_congr hp h1, by rw [hp ret (by simp)]; exact h2, by rw [texts_congr hp]; exact h3⟩
  | giving ret c todo last toPool =>
    have hp : ∀ p ∈ ret :: todo ++ last.toList, mem' p.chunk = mem p.chunk := by
      intro p hp
      refine h _ ?_
      simp only [EncPc.owns, List.mem_append, List.mem_cons, List.mem_map, Option.mem_toList,
        Option.map_eq_some_iff] at hp ⊢
      rcases hp with (rfl | hp) | hp
      · exact .inl (.inl (.inl rfl))
      · exact .inl (.inl (.inr (.inr ⟨p, hp, rfl⟩)))
      · exact .inl (.inr ⟨p, hp, rfl⟩)
    obtain ⟨h1, h2, h3⟩ := hok
    exact ⟨inside_congr hp h1, by rw [hp ret (by simp)]; exact h2, by rw [texts_congr hp]; exact h3⟩
  | closing ret toPool =>
    have hp : ∀ p ∈ [ret], mem' p.chunk = mem p.chunk := by
      intro p hp
      exact h _ (by simp only [List.mem_singleton] at hp; subst hp; simp [EncPc.owns])
    obtain ⟨h1, h2⟩ := hok
    refine ⟨inside_congr hp h1, ?_⟩
    rw [h2, GoSlice.read, GoSlice.read, hp ret (by simp)]
  | done ret touched =>
    have hp : ∀ p ∈ ret.toList, mem' p.chunk = mem p.chunk := by
      intro p hp
      refine h _ ?_
      simp only [EncPc.owns, Option.mem_toList, Option.map_eq_some_iff] at hp ⊢
      exact ⟨p, hp, rfl⟩
    obtain ⟨h1, h2⟩ := hok
    exact ⟨h1, fun ht => ⟨inside_congr hp (h2 ht).1, by rw [texts_congr hp]; exact (h2 ht).2⟩⟩
  | failed e => exact hok

theorem encInv_init (calls : Nat → Writing α E) : EncInv calls (.init calls) where
  own := by intro t; simp [EncWorld.init, EncPc.owns, ChunkBuf.zero]
  apart := by intro t u c h; simp [EncWorld.init, EncPc.owns, ChunkBuf.zero] at h
  free := by intro t c h; simp [EncWorld.init] at h
  nodup := by simp [EncWorld.init]
  ownMade := by intro t c h; simp [EncWorld.init, EncPc.owns, ChunkBuf.zero] at h
  poolMade := by intro c h; simp [EncWorld.init] at h
  ok := by intro t; simp [EncWorld.init, EncOk, ChunkBuf.zero, Inside, texts]

/-- A step of call `t`. -/
theorem encInv_of {calls : Nat → Writing α E} {w w' : EncWorld α E} {t : Nat} (hI : EncInv calls w)
    (hpc : ∀ u, u ≠ t → w'.pc u = w.pc u)
    (hmade : w.made ≤ w'.made)
    (hown : ∀ c ∈ (w'.pc t).owns, c ∈ (w.pc t).owns ∨ c ∈ w.pool ∨ (c = w.made ∧ w.made < w'.made))
    (hpool : ∀ c ∈ w'.pool, c ∈ w.pool ∨ c ∈ (w.pc t).owns)
    (hdis : ∀ c ∈ w'.pool, c ∉ (w'.pc t).owns)
    (hn : w'.pool.Nodup) (ho : (w'.pc t).owns.Nodup)
    (hmem : ∀ c, c ∉ (w.pc t).owns → c < w.made → w'.mem c = w.mem c)
    (hok : EncOk w'.mem (calls t) (w'.pc t)) : EncInv calls w' := by
  have other : ∀ {u c}, u ≠ t → c ∈ (w.pc u).owns → c ∉ (w'.pc t).owns := by
    intro u c hu hc hc'
    rcases hown c hc' with h | h | ⟨h, _⟩
    · exact hu (hI.apart hc h)
    · exact hI.free h hc
    · exact absurd (hI.ownMade hc) (by omega)
  refine ⟨fun u => ?_, fun {u v c} h h' => ?_, fun {u c} h => ?_, hn, fun {u c} h => ?_, fun {c} h => ?_, fun u => ?_⟩
  · by_cases hu : u = t
    · subst hu; exact ho
    · rw [hpc u hu]; exact hI.own u
  · by_cases hu : u = t <;> by_cases hv : v = t
    · exact hu.trans hv.symm
    · subst hu; rw [hpc v hv] at h'; exact absurd h (other hv h')
    · subst hv; rw [hpc u hu] at h; exact absurd h' (other hu h)
    · rw [hpc u hu] at h; rw [hpc v hv] at h'; exact hI.apart h h'
  · by_cases hu : u = t
    · subst hu; exact hdis c h
    · rw [hpc u hu]
      intro hc
      rcases hpool c h with h | h
      · exact hI.free h hc
      · exact hu (hI.apart hc h)
  · by_cases hu : u = t
    · subst hu
      rcases hown c h with h | h | ⟨h, h'⟩
      · exact Nat.lt_of_lt_of_le (hI.ownMade h) hmade
      · exact Nat.lt_of_lt_of_le (hI.poolMade h) hmade
      · omega
    · rw [hpc u hu] at h; exact Nat.lt_of_lt_of_le (hI.ownMade h) hmade
  · rcases hpool c h with h | h
    · exact Nat.lt_of_lt_of_le (hI.poolMade h) hmade
    · exact Nat.lt_of_lt_of_le (hI.ownMade h) hmade
  · by_cases hu : u = t
    · subst hu; exact hok
    · rw [hpc u hu]
      refine encOk_frame (fun c hc => hmem c (fun h => hu (hI.apart hc h)) (hI.ownMade hc)) (hI.ok u)

theorem overwrite_length {old s : List α} {n : Nat} (h : n + s.length ≤ old.length) :
    (GoSlice.overwrite old n s).length = old.length := by
  simp [GoSlice.overwrite]; omega

theorem overwrite_take {old s : List α} {n : Nat} (h : n ≤ old.length) :
    (GoSlice.overwrite old n s).take (n + s.length) = old.take n ++ s := by
  rw [GoSlice.overwrite, List.take_append_of_le_length (by simp; omega)]
  rw [List.take_of_length_le (by simp; omega)]

theorem read_length {mem : Nat → List α} {p : GoSlice} (h : p.len ≤ (mem p.chunk).length) :
    (p.read mem).length = p.len := by
  simp [GoSlice.read]; omega

theorem encInv_step {calls : Nat → Writing α E} {w w' : EncWorld α E} (hI : EncInv calls w) (h : EncStep w w') :
    EncInv calls w' := by
  have others : ∀ {t : Nat} {pc : EncPc α E}, ∀ u, u ≠ t → setAt w.pc t pc u = w.pc u := fun u hu => setAt_ne _ _ hu
  cases h with
  | getNew t bufs todo zeros ht =>
    have how := hI.own t
    have hok := hI.ok t
    have hlt : ∀ {c}, c ∈ (w.pc t).owns → c < w.made := hI.ownMade
    rw [ht] at how hok hlt
    simp only [EncPc.owns, Option.map_none, Option.toList_none, List.filter_nil, List.append_nil] at how hlt
    have hfresh : ∀ p ∈ bufs, p.chunk ≠ w.made := fun p hp =>
      Nat.ne_of_lt (hlt (List.mem_map.2 ⟨p, hp, rfl⟩))
    refine encInv_of (t := t) hI others (by simp) ?_ (fun c hc => .inl hc) ?_ hI.nodup ?_ ?_ ?_
    · intro c hc
      simp only [setAt_same, ht, EncPc.owns] at hc ⊢
      simp at hc ⊢
      rcases hc with hc | hc
      · exact .inl hc
      · exact .inr (.inr hc)
    · intro c hc hc'
      simp only [setAt_same, EncPc.owns] at hc'
      simp at hc'
      rcases hc' with hc' | hc'
      · exact hI.free (t := t) hc (by rw [ht]; simpa [EncPc.owns] using hc')
      · exact absurd (hI.poolMade hc) (by omega)
    · simp only [setAt_same, EncPc.owns]
      simp only [Option.map_some, Option.toList_some, ne_eq, List.append_assoc]
      rw [List.filter_cons_of_neg (by simp), List.filter_nil, List.append_nil, List.nodup_append]
      refine ⟨how, by simp, ?_⟩
      intro a ha b hb
      simp only [List.mem_singleton] at hb
      obtain ⟨p, hp, rfl⟩ := List.mem_map.1 ha
      rw [hb]; exact hfresh p hp
    · intro c _ hc
      exact setAt_ne _ _ (by omega)
    · simp only [setAt_same]
      obtain ⟨h1, h2, h3⟩ := hok
      simp only [Option.toList_none, List.append_nil] at h1 h3
      have hc : ∀ p ∈ bufs, setAt w.mem w.made zeros p.chunk = w.mem p.chunk := fun p hp => setAt_ne _ _ (hfresh p hp)
      refine ⟨?_, by simp, ?_⟩
      · intro p hp
        simp only [Option.toList_some, List.mem_append, List.mem_singleton] at hp
        rcases hp with hp | rfl
        · rw [hc p hp]; exact h1 p hp
        · simp
      · rw [h3]
        simp only [Option.toList_some, texts_append, texts_congr hc]
        simp [texts, GoSlice.read]
  | getPooled t bufs todo c ht hc =>
    have how := hI.own t
    have hok := hI.ok t
    rw [ht] at how hok
    simp only [EncPc.owns, Option.map_none, Option.toList_none, List.filter_nil, List.append_nil] at how
    have hfresh : ∀ p ∈ bufs, p.chunk ≠ c := fun p hp he =>
      hI.free (t := t) hc (by rw [ht]; simp only [EncPc.owns]; simp; exact ⟨p, hp, he⟩)
    refine encInv_of (t := t) hI others (by simp) ?_ (fun c hc => .inl (List.mem_of_mem_erase hc)) ?_
      (hI.nodup.erase _) ?_ (fun _ _ _ => rfl) ?_
    · intro d hd
      simp only [setAt_same, ht, EncPc.owns] at hd ⊢
      simp at hd ⊢
      rcases hd with hd | hd
      · exact .inl hd
      · exact .inr (hd ▸ hc)
    · intro d hd hd'
      simp only [setAt_same, EncPc.owns] at hd'
      simp at hd'
      rcases hd' with hd' | hd'
      · exact hI.free (t := t) (List.mem_of_mem_erase hd) (by rw [ht]; simpa [EncPc.owns] using hd')
      · exact hI.nodup.not_mem_erase (hd' ▸ hd)
    · simp only [setAt_same, EncPc.owns]
      simp only [Option.map_some, Option.toList_some, ne_eq, List.append_assoc]
      rw [List.filter_cons_of_neg (by simp), List.filter_nil, List.append_nil, List.nodup_append]
      refine ⟨how, by simp, ?_⟩
      intro a ha b hb
      simp only [List.mem_singleton] at hb
      obtain ⟨p, hp, rfl⟩ := List.mem_map.1 ha
      rw [hb]; exact hfresh p hp
    · simp only [setAt_same]
      obtain ⟨h1, h2, h3⟩ := hok
      simp only [Option.toList_none, List.append_nil] at h1 h3
      refine ⟨?_, by simp, ?_⟩
      · intro p hp
        simp only [Option.toList_some, List.mem_append, List.mem_singleton] at hp
        rcases hp with hp | rfl
        · exact h1 p hp
        · simp
      · rw [h3]
        simp [texts, GoSlice.read]
  | retire t bufs p c todo ht hp =>
    have how := hI.own t
    have hok := hI.ok t
    rw [ht] at how hok
    have hsub : ∀ d ∈ (bufs ++ [p]).map (·.chunk), d ∈ (w.pc t).owns := by
      intro d hd
      rw [ht]; simp [EncPc.owns] at hd ⊢
      rcases hd with hd | hd
      · exact .inl hd
      · exact .inr (.inl hd)
    have hcp : (w.mem c).length ≠ (w.mem p.chunk).length → c ∈ (w.pc t).owns ∧ c ∉ (bufs ++ [p]).map (·.chunk) := by
      intro hne
      have hcc : c ≠ p.chunk := by rintro rfl; exact hne rfl
      simp only [EncPc.owns, Option.map_some, Option.toList_some] at how
      rw [List.filter_cons_of_pos (by simpa using hcc), List.filter_nil, List.nodup_append] at how
      refine ⟨?_, fun hm => how.2.2 c (by simpa using hm) c (by simp) rfl⟩
      rw [ht]; simp [EncPc.owns, hcc]
    refine encInv_of (t := t) hI others (by simp) ?_ ?_ ?_ ?_ ?_ (fun _ _ _ => rfl) ?_
    · intro d hd
      refine .inl (hsub d ?_)
      simpa [EncPc.owns] using hd
    · intro d hd
      simp only at hd
      split at hd
      · rcases List.mem_cons.1 hd with rfl | hd
        · exact .inr (hcp ‹_›).1
        · exact .inl hd
      · exact .inl hd
    · intro d hd hd'
      have hd'' : d ∈ (bufs ++ [p]).map (·.chunk) := by simpa [EncPc.owns] using hd'
      simp only at hd
      split at hd
      · rcases List.mem_cons.1 hd with rfl | hd
        · exact (hcp ‹_›).2 hd''
        · exact hI.free hd (hsub d hd'')
      · exact hI.free hd (hsub d hd'')
    · simp only
      split
      · exact List.nodup_cons.2 ⟨fun hm => hI.free hm (hcp ‹_›).1, hI.nodup⟩
      · exact hI.nodup
    · simp only [setAt_same, EncPc.owns]
      simp only [EncPc.owns] at how
      rw [List.nodup_append] at how
      simpa using how.1
    · simp only [setAt_same]
      obtain ⟨h1, h2, h3⟩ := hok
      exact ⟨by simpa using h1, by simp, by simpa using h3⟩
  | discard t bufs p c todo ht hp =>
    have how := hI.own t
    have hok := hI.ok t
    rw [ht] at how hok
    have hsub : ∀ d ∈ bufs.map (·.chunk), d ∈ (w.pc t).owns := by
      intro d hd
      rw [ht]; simp [EncPc.owns] at hd ⊢
      exact .inl hd
    refine encInv_of (t := t) hI others (by simp) ?_ (fun _ h => .inl h) ?_ hI.nodup ?_ (fun _ _ _ => rfl) ?_
    · intro d hd
      refine .inl (hsub d ?_)
      simpa [EncPc.owns] using hd
    · intro d hd hd'
      exact hI.free hd (hsub d (by simpa [EncPc.owns] using hd'))
    · simp only [setAt_same, EncPc.owns]
      simp only [EncPc.owns, List.append_assoc] at how
      rw [List.nodup_append] at how
      simpa using how.1
    · simp only [setAt_same]
      obtain ⟨h1, h2, h3⟩ := hok
      refine ⟨fun q hq => h1 q (by simp at hq ⊢; exact .inl hq), by simp, ?_⟩
      rw [h3, texts_append]
      simp [texts, GoSlice.read, hp]
  | append t bufs p toPool s s' rest ht hfit =>
    have how := hI.own t
    have hok := hI.ok t
    rw [ht] at how hok
    have heq : (setAt w.pc t (.writing ⟨bufs, some ⟨p.chunk, p.len + s.length⟩, toPool⟩ (.write s' rest)) t).owns =
        (w.pc t).owns := by
      rw [ht]; simp [EncPc.owns]
    have hpt : p.chunk ∈ (w.pc t).owns := by rw [ht]; simp [EncPc.owns]
    have hfresh : ∀ q ∈ bufs, q.chunk ≠ p.chunk := by
      intro q hq he
      simp only [EncPc.owns, List.append_assoc] at how
      rw [List.nodup_append] at how
      exact how.2.2 q.chunk (List.mem_map.2 ⟨q, hq, rfl⟩) p.chunk (by simp) he
    refine encInv_of (t := t) hI others (by simp) (fun d hd => .inl (heq ▸ hd)) (fun _ h => .inl h)
      (fun d hd hd' => hI.free (t := t) hd (heq ▸ hd')) hI.nodup (by rw [heq]; exact hI.own t) ?_ ?_
    · intro d hd _
      exact setAt_ne _ _ (by rintro rfl; exact hd hpt)
    · simp only [setAt_same]
      obtain ⟨h1, h2, h3⟩ := hok
      have hc : ∀ q ∈ bufs, setAt w.mem p.chunk (GoSlice.overwrite (w.mem p.chunk) p.len s) q.chunk = w.mem q.chunk :=
        fun q hq => setAt_ne _ _ (hfresh q hq)
      have hpl : p.len ≤ (w.mem p.chunk).length := by omega
      refine ⟨?_, by simpa using h2, ?_⟩
      · intro q hq
        simp only [Option.toList_some, List.mem_append, List.mem_singleton] at hq
        rcases hq with hq | rfl
        · rw [hc q hq]; exact h1 q (by simp; exact .inl hq)
        · simp only [setAt_same]; rw [overwrite_length hfit]; exact hfit
      · rw [h3]
        simp only [Option.toList_some, texts_append, texts_congr hc, Writing.alone]
        simp [texts, GoSlice.read, overwrite_take hpl]
  | move t bufs p toPool s rest zeros ht hfit =>
    have how := hI.own t
    have hok := hI.ok t
    have hlt : ∀ {c}, c ∈ (w.pc t).owns → c < w.made := hI.ownMade
    rw [ht] at how hok
    have hmem : ∀ d ∈ (EncPc.writing ⟨bufs, some ⟨w.made, p.len + s.length⟩, toPool⟩ rest : EncPc α E).owns,
        d ∈ (w.pc t).owns ∨ d = w.made := by
      intro d hd
      rw [ht]
      obtain ⟨h1, h2, h3⟩ := hok
      cases toPool with
      | none => exact absurd (h2.2 rfl) (by simp)
      | some c =>
        simp [EncPc.owns] at hd ⊢
        by_cases hcp : c = p.chunk
        · rcases hd with hd | hd | ⟨hd, _⟩
          · exact .inl (.inl hd)
          · exact .inr hd
          · exact .inl (.inr (.inl (hd.trans hcp)))
        · rcases hd with hd | hd | ⟨hd, _⟩
          · exact .inl (.inl hd)
          · exact .inr hd
          · exact .inl (.inr (.inr ⟨hd, hd ▸ hcp⟩))
    have hfresh : ∀ q ∈ bufs, q.chunk ≠ w.made := by
      intro q hq
      have : q.chunk ∈ (w.pc t).owns := by
        rw [ht]; simp [EncPc.owns]; exact .inl ⟨q, hq, rfl⟩
      exact Nat.ne_of_lt (hlt this)
    refine encInv_of (t := t) hI others (by simp) ?_ (fun _ h => .inl h) ?_ hI.nodup ?_ ?_ ?_
    · intro d hd
      simp only [setAt_same] at hd
      rcases hmem d hd with h | h
      · exact .inl h
      · exact .inr (.inr ⟨h, by simp⟩)
    · intro d hd hd'
      simp only [setAt_same] at hd'
      rcases hmem d hd' with h | h
      · exact hI.free hd h
      · exact absurd (hI.poolMade hd) (by omega)
    · simp only [setAt_same]
      obtain ⟨h1, h2, h3⟩ := hok
      cases toPool with
      | none => exact absurd (h2.2 rfl) (by simp)
      | some c =>
        have hcm : c ≠ w.made := by
          refine Nat.ne_of_lt (hlt ?_)
          rw [ht]; simp [EncPc.owns]
          by_cases hcp : c = p.chunk
          · exact .inr (.inl hcp)
          · exact .inr (.inr hcp)
        have hcb : c ∉ bufs.map (·.chunk) := by
          intro hm
          simp only [EncPc.owns, List.append_assoc] at how
          rw [List.nodup_append] at how
          refine how.2.2 c hm c ?_ rfl
          simp
          by_cases hcp : c = p.chunk
          · exact .inl hcp
          · exact .inr hcp
        simp only [EncPc.owns, List.append_assoc, Option.map_some, Option.toList_some] at how ⊢
        rw [List.nodup_append] at how
        rw [List.filter_cons_of_pos (by simpa using hcm), List.filter_nil, List.nodup_append]
        refine ⟨how.1, by simpa using Ne.symm hcm, ?_⟩
        intro a ha b hb
        simp only [List.cons_append, List.nil_append, List.mem_cons, List.not_mem_nil, or_false] at hb
        rcases hb with rfl | rfl
        · obtain ⟨q, hq, rfl⟩ := List.mem_map.1 ha
          exact hfresh q hq
        · rintro rfl; exact hcb ha
    · intro c _ hc
      exact setAt_ne _ _ (by omega)
    · simp only [setAt_same]
      obtain ⟨h1, h2, h3⟩ := hok
      have hc : ∀ q ∈ bufs, setAt w.mem w.made (p.read w.mem ++ s ++ zeros) q.chunk = w.mem q.chunk :=
        fun q hq => setAt_ne _ _ (hfresh q hq)
      have hpl : (p.read w.mem).length = p.len := read_length (h1 p (by simp))
      refine ⟨?_, by simpa using h2, ?_⟩
      · intro q hq
        simp only [Option.toList_some, List.mem_append, List.mem_singleton] at hq
        rcases hq with hq | rfl
        · rw [hc q hq]; exact h1 q (by simp; exact .inl hq)
        · simp [hpl]
      · rw [h3]
        simp only [Option.toList_some, texts_append, texts_congr hc, Writing.alone]
        have : (GoSlice.mk w.made (p.len + s.length)).read (setAt w.mem w.made (p.read w.mem ++ s ++ zeros)) =
            p.read w.mem ++ s := by
          rw [GoSlice.read]
          simp only [setAt_same]
          rw [List.take_append_of_le_length (by simp [hpl]), List.take_of_length_le (by simp [hpl])]
        simp only [texts, List.flatMap_cons, List.flatMap_nil, List.append_nil, this]
        simp only [List.append_assoc]
  | wrote t b rest ht =>
    have hok := hI.ok t
    rw [ht] at hok
    have heq : (setAt w.pc t (.writing b rest) t).owns = (w.pc t).owns := by rw [ht]; simp [EncPc.owns]
    refine encInv_of (t := t) hI others (by simp) (fun d hd => .inl (heq ▸ hd)) (fun _ h => .inl h)
      (fun d hd hd' => hI.free (t := t) hd (heq ▸ hd')) hI.nodup (by rw [heq]; exact hI.own t) (fun _ _ _ => rfl) ?_
    simp only [setAt_same]
    obtain ⟨h1, h2, h3⟩ := hok
    exact ⟨h1, h2, by rw [h3]; simp [Writing.alone]⟩
  | fail t b e ht =>
    have hok := hI.ok t
    rw [ht] at hok
    refine encInv_of (t := t) hI others (by simp) (fun d hd => ?_) (fun _ h => .inl h)
      (fun d hd hd' => ?_) hI.nodup (by simp [EncPc.owns]) (fun _ _ _ => rfl) ?_
    · simp [EncPc.owns] at hd
    · simp [EncPc.owns] at hd'
    · simp only [setAt_same]
      obtain ⟨h1, h2, h3⟩ := hok
      simp only [EncOk, h3, Writing.alone]
  | buildOne t last toPool ht =>
    have how := hI.own t
    have hok := hI.ok t
    rw [ht] at how hok
    have hsub : ∀ d ∈ (last.map (·.chunk)).toList, d ∈ (w.pc t).owns := by
      intro d hd
      rw [ht]; simp only [EncPc.owns, List.mem_append]
      exact .inl (.inr hd)
    refine encInv_of (t := t) hI others (by simp) ?_ (fun _ h => .inl h) ?_ hI.nodup ?_ (fun _ _ _ => rfl) ?_
    · intro d hd
      simp only [setAt_same] at hd
      exact .inl (hsub d hd)
    · intro d hd hd'
      simp only [setAt_same] at hd'
      exact hI.free hd (hsub d hd')
    · simp only [setAt_same]
      cases last <;> simp [EncPc.owns]
    · simp only [setAt_same]
      obtain ⟨h1, h2, h3⟩ := hok
      refine ⟨by rw [h3]; rfl, fun _ => ⟨by simpa using h1, by rw [h3]; simp [Writing.alone]⟩⟩
  | buildMany t p bufs last toPool zeros ht hz =>
    have how := hI.own t
    have hok := hI.ok t
    have hlt : ∀ {c}, c ∈ (w.pc t).owns → c < w.made := hI.ownMade
    rw [ht] at how hok
    have heq : (setAt w.pc t (.building ⟨w.made, 0⟩ (p :: bufs) last toPool) t).owns = w.made :: (w.pc t).owns := by
      rw [setAt_same, ht]; simp [EncPc.owns]
    refine encInv_of (t := t) hI others (by simp) ?_ (fun _ h => .inl h) ?_ hI.nodup ?_ ?_ ?_
    · intro d hd
      have hd := heq ▸ hd
      rcases List.mem_cons.1 hd with h | h
      · exact .inr (.inr ⟨h, by simp⟩)
      · exact .inl h
    · intro d hd hd'
      have hd' := heq ▸ hd'
      rcases List.mem_cons.1 hd' with h | h
      · exact absurd (hI.poolMade hd) (by omega)
      · exact hI.free hd h
    · rw [heq]
      exact List.nodup_cons.2 ⟨fun h => absurd (hlt h) (by omega), hI.own t⟩
    · intro c _ hc
      exact setAt_ne _ _ (by omega)
    · simp only [setAt_same]
      obtain ⟨h1, h2, h3⟩ := hok
      have hc : ∀ q ∈ (p :: bufs) ++ last.toList, setAt w.mem w.made zeros q.chunk = w.mem q.chunk := by
        intro q hq
        refine setAt_ne _ _ (Nat.ne_of_lt (hlt ?_))
        rw [ht]
        simp only [EncPc.owns, List.mem_append, Option.mem_toList, Option.map_eq_some_iff] at hq ⊢
        rcases hq with hq | hq
        · exact .inl (.inl (List.mem_map.2 ⟨q, hq, rfl⟩))
        · exact .inl (.inr ⟨q, hq, rfl⟩)
      refine ⟨?_, ?_, ?_⟩
      · intro q hq
        simp only [List.cons_append, List.mem_cons] at hq
        rcases hq with rfl | hq
        · simp
        · have := inside_congr hc h1
          exact this q (by simpa using hq)
      · simp only [setAt_same, total]; omega
      · have := texts_congr hc
        rw [h3]
        simp only [Writing.alone, List.append_nil, List.cons_append] at this ⊢
        rw [← this]
        simp [texts, GoSlice.read]
  | copy t ret p todo last toPool ht =>
    have how := hI.own t
    have hok := hI.ok t
    rw [ht] at how hok
    have heq : (setAt w.pc t (.giving ⟨ret.chunk, ret.len + (p.read w.mem).length⟩ p.chunk todo last toPool) t).owns =
        (w.pc t).owns := by
      rw [setAt_same, ht]; simp [EncPc.owns]
    have hpt : ret.chunk ∈ (w.pc t).owns := by rw [ht]; simp [EncPc.owns]
    have hfresh : ∀ q ∈ (p :: todo) ++ last.toList, q.chunk ≠ ret.chunk := by
      intro q hq he
      simp only [EncPc.owns, List.cons_append, List.append_assoc] at how
      refine (List.nodup_cons.1 how).1 (he ▸ ?_)
      simp only [List.mem_append, Option.mem_toList, Option.map_eq_some_iff] at hq ⊢
      rcases hq with hq | hq
      · exact .inl (List.mem_map.2 ⟨q, hq, rfl⟩)
      · exact .inr (.inl ⟨q, hq, rfl⟩)
    refine encInv_of (t := t) hI others (by simp) (fun d hd => .inl (heq ▸ hd)) (fun _ h => .inl h)
      (fun d hd hd' => hI.free (t := t) hd (heq ▸ hd')) hI.nodup (by rw [heq]; exact hI.own t) ?_ ?_
    · intro d hd _
      exact setAt_ne _ _ (by rintro rfl; exact hd hpt)
    · simp only [setAt_same]
      obtain ⟨h1, h2, h3⟩ := hok
      have hpl : (p.read w.mem).length = p.len := read_length (h1 p (by simp))
      have hrl : ret.len ≤ (w.mem ret.chunk).length := h1 ret (by simp)
      have hfit : ret.len + (p.read w.mem).length ≤ (w.mem ret.chunk).length := by
        rw [hpl]
        simp only [List.cons_append, total, List.foldr_cons] at h2
        omega
      have hc : ∀ q ∈ todo ++ last.toList, setAt w.mem ret.chunk
          (GoSlice.overwrite (w.mem ret.chunk) ret.len (p.read w.mem)) q.chunk = w.mem q.chunk :=
        fun q hq => setAt_ne _ _ (hfresh q (by simp only [List.cons_append]; exact List.mem_cons_of_mem _ hq))
      refine ⟨?_, ?_, ?_⟩
      · intro q hq
        simp only [List.cons_append, List.mem_cons] at hq
        rcases hq with rfl | hq
        · simp only [setAt_same]; rw [overwrite_length hfit]; exact hfit
        · rw [hc q hq]; exact h1 q (by simp at hq ⊢; exact .inr (.inr hq))
      · simp only [setAt_same]; rw [overwrite_length hfit, hpl]
        simp only [List.cons_append, total, List.foldr_cons] at h2 ⊢
        omega
      · rw [h3]
        have e1 : (GoSlice.mk ret.chunk (ret.len + (p.read w.mem).length)).read
            (setAt w.mem ret.chunk (GoSlice.overwrite (w.mem ret.chunk) ret.len (p.read w.mem))) =
            ret.read w.mem ++ p.read w.mem := by
          rw [GoSlice.read]
          simp only [setAt_same]
          rw [overwrite_take hrl]; rfl
        have := texts_congr hc
        simp only [List.cons_append] at this ⊢
        rw [texts, texts, List.flatMap_cons, List.flatMap_cons, List.flatMap_cons, e1]
        rw [texts, texts] at this
        rw [this]
        simp
  | give t ret c todo last toPool ht =>
    have how := hI.own t
    have hok := hI.ok t
    rw [ht] at how hok
    have hc : c ∈ (w.pc t).owns := by rw [ht]; simp [EncPc.owns]
    have hperm : (EncPc.giving ret c todo last toPool : EncPc α E).owns.Perm
        (c :: (EncPc.building ret todo last toPool : EncPc α E).owns) := by
      simp only [EncPc.owns, List.cons_append]
      exact List.Perm.swap _ _ _
    have hnd := hperm.nodup_iff.1 how
    have hsub : ∀ d ∈ (EncPc.building ret todo last toPool : EncPc α E).owns, d ∈ (w.pc t).owns := by
      intro d hd
      rw [ht]
      exact hperm.mem_iff.2 (List.mem_cons_of_mem _ hd)
    refine encInv_of (t := t) hI others (by simp) ?_ ?_ ?_ ?_ ?_ (fun _ _ _ => rfl) ?_
    · intro d hd
      simp only [setAt_same] at hd
      exact .inl (hsub d hd)
    · intro d hd
      rcases List.mem_cons.1 hd with rfl | hd
      · exact .inr hc
      · exact .inl hd
    · intro d hd hd'
      simp only [setAt_same] at hd'
      rcases List.mem_cons.1 hd with rfl | hd
      · exact (List.nodup_cons.1 hnd).1 hd'
      · exact hI.free hd (hsub d hd')
    · exact List.nodup_cons.2 ⟨fun h => hI.free h hc, hI.nodup⟩
    · simp only [setAt_same]; exact (List.nodup_cons.1 hnd).2
    · simp only [setAt_same]
      exact hok
  | copyLast t ret last toPool ht =>
    have how := hI.own t
    have hok := hI.ok t
    rw [ht] at how hok
    have hpt : ret.chunk ∈ (w.pc t).owns := by rw [ht]; simp [EncPc.owns]
    have hsub : ∀ d ∈ (EncPc.closing ret toPool : EncPc α E).owns, d ∈ (w.pc t).owns := by
      intro d hd
      rw [ht]
      cases toPool with
      | none => simp [EncPc.owns] at hd ⊢; exact .inl hd
      | some c =>
        simp [EncPc.owns] at hd ⊢
        rcases hd with hd | hd
        · exact .inl hd
        · subst hd
          cases last with
          | none => simp
          | some p =>
            by_cases hcp : d = p.chunk
            · simp [hcp]
            · simp; exact .inr (.inr (by simpa using hcp))
    have hnd : (EncPc.closing ret toPool : EncPc α E).owns.Nodup := by
      cases toPool with
      | none => simp [EncPc.owns]
      | some c =>
        simp only [EncPc.owns, Option.toList_some, List.nodup_cons, List.mem_singleton, List.not_mem_nil,
          not_false_eq_true, List.nodup_nil, and_true]
        rintro rfl
        simp only [EncPc.owns, List.map_nil, List.cons_append, List.nil_append] at how
        refine (List.nodup_cons.1 how).1 ?_
        cases last with
        | none => simp
        | some p =>
          by_cases hcp : ret.chunk = p.chunk
          · simp [hcp]
          · simp [hcp]
    have heq : (setAt w.pc t (.closing ⟨ret.chunk, ret.len + ((last.map (·.read w.mem)).getD []).length⟩ toPool) t).owns =
        (EncPc.closing ret toPool : EncPc α E).owns := by
      rw [setAt_same]; simp [EncPc.owns]
    refine encInv_of (t := t) hI others (by simp) (fun d hd => .inl (hsub d (heq ▸ hd))) (fun _ h => .inl h)
      (fun d hd hd' => hI.free (t := t) hd (hsub d (heq ▸ hd'))) hI.nodup (by rw [heq]; exact hnd) ?_ ?_
    · intro d hd _
      exact setAt_ne _ _ (by rintro rfl; exact hd hpt)
    · simp only [setAt_same]
      obtain ⟨h1, h2, h3⟩ := hok
      have hrl : ret.len ≤ (w.mem ret.chunk).length := h1 ret (by simp)
      have e : (last.map (·.read w.mem)).getD [] = texts w.mem last.toList := by
        cases last <;> simp [texts]
      have hl : ((last.map (·.read w.mem)).getD []).length = total last.toList := by
        cases last with
        | none => simp [total]
        | some p => simp [total, read_length (h1 p (by simp))]
      have hfit : ret.len + ((last.map (·.read w.mem)).getD []).length ≤ (w.mem ret.chunk).length := by
        rw [hl]; simpa using h2
      refine ⟨?_, ?_⟩
      · intro q hq
        simp only [List.mem_singleton] at hq
        subst hq
        simp only [setAt_same]; rw [overwrite_length hfit]; exact hfit
      · rw [h3, GoSlice.read]
        simp only [setAt_same]
        rw [overwrite_take hrl, e]
        simp [texts, GoSlice.read]
  | close t ret toPool ht =>
    have how := hI.own t
    have hok := hI.ok t
    rw [ht] at how hok
    have hin : ∀ d ∈ toPool.toList, d ∈ (w.pc t).owns := by
      intro d hd; rw [ht]; simp only [EncPc.owns]; exact List.mem_cons_of_mem _ hd
    have hret : ret.chunk ∈ (w.pc t).owns := by rw [ht]; simp [EncPc.owns]
    simp only [EncPc.owns] at how
    refine encInv_of (t := t) hI others (by simp) ?_ ?_ ?_ ?_ ?_ (fun _ _ _ => rfl) ?_
    · intro d hd
      simp only [setAt_same] at hd
      simp [EncPc.owns] at hd
      exact .inl (hd ▸ hret)
    · intro d hd
      rcases List.mem_append.1 hd with hd | hd
      · exact .inr (hin d hd)
      · exact .inl hd
    · intro d hd hd'
      simp only [setAt_same] at hd'
      simp [EncPc.owns] at hd'
      subst hd'
      rcases List.mem_append.1 hd with hd | hd
      · exact (List.nodup_cons.1 how).1 hd
      · exact hI.free hd hret
    · rw [List.nodup_append]
      exact ⟨(List.nodup_cons.1 how).2, hI.nodup, fun a ha b hb hab => hI.free hb (hab ▸ hin a ha)⟩
    · simp only [setAt_same]; simp [EncPc.owns]
    · simp only [setAt_same]
      obtain ⟨h1, h2⟩ := hok
      exact ⟨by rw [h2], fun _ => ⟨h1, by rw [h2]; simp [texts]⟩⟩
  | touch t ret b junk ht =>
    have hok := hI.ok t
    have heq : (setAt w.pc t (.done (some ret) true) t).owns = (w.pc t).owns := by rw [ht]; simp [EncPc.owns]
    have hret : ret.chunk ∈ (w.pc t).owns := by rw [ht]; simp [EncPc.owns]
    rw [ht] at hok
    refine encInv_of (t := t) hI others (by simp) (fun d hd => .inl (heq ▸ hd)) (fun _ h => .inl h)
      (fun d hd hd' => hI.free (t := t) hd (heq ▸ hd')) hI.nodup (by rw [heq]; exact hI.own t) ?_ ?_
    · intro d hd _
      exact setAt_ne _ _ (by rintro rfl; exact hd hret)
    · simp only [setAt_same]
      exact ⟨hok.1, fun h => by cases h⟩
  | drop c hc =>
    exact ⟨hI.own, hI.apart, fun h => hI.free (List.mem_of_mem_erase h), hI.nodup.erase _, hI.ownMade,
      fun h => hI.poolMade (List.mem_of_mem_erase h), hI.ok⟩

end

end VJ
