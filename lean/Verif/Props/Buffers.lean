import Verif.Proof.Buffers
import Verif.Spec.Bytes
import Verif.Props.EncodeTotal

/-!
# C72: concurrent encodes and the pool of buffers
-/

namespace VJ

section
variable {α E : Type} {calls : Nat → Writing α E}

/-- Reached from the beginning, by any schedule. -/
def EncReached (calls : Nat → Writing α E) (w : EncWorld α E) : Prop := EncRun (.init calls) w

/-- The bytes a caller finds in the slice it got. -/
def EncWorld.bytes (w : EncWorld α E) : Option GoSlice → List α
  | none => []
  | some p => (w.mem p.chunk).take p.len

/-- The call has returned. -/
def EncPc.Returned : EncPc α E → Prop
  | .done _ _ => True
  | .failed _ => True
  | _ => False

theorem encInv_reached {w : EncWorld α E} (h : EncReached calls w) : EncInv calls w := by
  unfold EncReached at h
  induction h with
  | refl => exact encInv_init calls
  | step _ hs ih => exact encInv_step ih hs

theorem encInv_run {w w' : EncWorld α E} (hI : EncInv calls w) (h : EncRun w w') : EncInv calls w' := by
  induction h with
  | refl => exact hI
  | step _ hs ih => exact encInv_step ih hs

theorem texts_bytes (w : EncWorld α E) (r : Option GoSlice) : texts w.mem r.toList = w.bytes r := by
  cases r <;> simp [texts, EncWorld.bytes, GoSlice.read]

/-- **Every schedule gives every call its own text.** A call that has returned a slice wrote
without error, and the slice holds exactly the bytes its `MarshalTo` wrote, in their order: not
only when it returns but at any later time, whatever the other calls and the callers that got
their results do, as long as its own caller does not write to it. -/
theorem C72_as_if_alone {w : EncWorld α E} (h : EncReached calls w) {t : Nat} {r : Option GoSlice}
    (hd : w.pc t = .done r false) : (calls t).alone = (w.bytes r, none) := by
  have := (encInv_reached h).ok t
  rw [hd] at this
  obtain ⟨h1, h2⟩ := this
  rw [← texts_bytes, ← (h2 rfl).2, ← h1]

/-- **A call fails exactly with the error of its own `MarshalTo`**, and a call that returned a
slice had none. -/
theorem C72_error {w : EncWorld α E} (h : EncReached calls w) {t : Nat} :
    (∀ e, w.pc t = .failed e → (calls t).alone.2 = some e) ∧
    (∀ r b, w.pc t = .done r b → (calls t).alone.2 = none) := by
  have := (encInv_reached h).ok t
  refine ⟨fun e hd => ?_, fun r b hd => ?_⟩ <;> rw [hd] at this
  · exact this
  · exact this.1

/-- **A returned slice is the caller's for good**: the call stays returned with the same slice,
and the bytes in it stay as they are until the caller itself writes to it. -/
theorem C72_result_stays {w w' : EncWorld α E} (h : EncReached calls w) {t : Nat} {r : Option GoSlice} {b : Bool}
    (hd : w.pc t = .done r b) (hr : EncRun w w') :
    ∃ b', w'.pc t = .done r b' ∧ (b' = false → w'.bytes r = w.bytes r) := by
  have key : ∃ b', w'.pc t = .done r b' ∧ (b' = false → b = false) := by
    induction hr with
    | refl => exact ⟨b, hd, id⟩
    | step _ hs ih =>
      rename_i u u' _
      obtain ⟨b1, ih, hb⟩ := ih
      have ne : ∀ {s : Nat} {c : EncPc α E}, (∀ r b, u.pc s ≠ .done r b) →
          ∃ b', setAt u.pc s c t = .done r b' ∧ (b' = false → b = false) := by
        intro s c hne
        by_cases hst : t = s
        · subst hst; exact absurd ih (hne _ _)
        · rw [setAt_ne _ _ hst]; exact ⟨b1, ih, hb⟩
      cases hs with
      | getNew s _ _ _ h => exact ne (by rw [h]; simp)
      | getPooled s _ _ _ h => exact ne (by rw [h]; simp)
      | retire s _ _ _ _ h => exact ne (by rw [h]; simp)
      | discard s _ _ _ _ h => exact ne (by rw [h]; simp)
      | append s _ _ _ _ _ _ h => exact ne (by rw [h]; simp)
      | move s _ _ _ _ _ _ h => exact ne (by rw [h]; simp)
      | wrote s _ _ h => exact ne (by rw [h]; simp)
      | fail s _ _ h => exact ne (by rw [h]; simp)
      | buildOne s _ _ h => exact ne (by rw [h]; simp)
      | buildMany s _ _ _ _ _ h => exact ne (by rw [h]; simp)
      | copy s _ _ _ _ _ h => exact ne (by rw [h]; simp)
      | give s _ _ _ _ _ h => exact ne (by rw [h]; simp)
      | copyLast s _ _ _ h => exact ne (by rw [h]; simp)
      | close s _ _ h => exact ne (by rw [h]; simp)
      | touch s ret _ _ h =>
        by_cases hst : t = s
        · subst hst
          rw [h] at ih
          cases ih
          exact ⟨true, by simp, by simp⟩
        · exact ⟨b1, by simp only [setAt_ne _ _ hst]; exact ih, hb⟩
      | drop => exact ⟨b1, ih, hb⟩
  obtain ⟨b', h1, h2⟩ := key
  refine ⟨b', h1, fun hb => ?_⟩
  have e1 := C72_as_if_alone h (h2 hb ▸ hd)
  have e2 : (calls t).alone = (w'.bytes r, none) := by
    have := (encInv_run (encInv_reached h) hr).ok t
    rw [h1] at this
    obtain ⟨g1, g2⟩ := this
    rw [← texts_bytes, ← (g2 hb).2, ← g1]
  exact congrArg Prod.fst (e2.symm.trans e1)

/-- **No memory is shared.** At every moment: the slices of two callers lie in different memory,
the memory of a slice that was returned is in no pool and with no running call, and no chunk is
with two running calls, or with one and in the pool, or in the pool twice. -/
theorem C72_one_owner {w : EncWorld α E} (h : EncReached calls w) (c : Nat) :
    (∀ t u, c ∈ (w.pc t).owns → c ∈ (w.pc u).owns → t = u) ∧
    (c ∈ w.pool → (∀ t, c ∉ (w.pc t).owns) ∧ w.pool.count c = 1) ∧
    (∀ t p b, w.pc t = .done (some p) b → p.chunk = c → c ∉ w.pool ∧ ∀ u, u ≠ t → c ∉ (w.pc u).owns) := by
  have hI := encInv_reached h
  refine ⟨fun t u => hI.apart, fun hc => ⟨fun t => hI.free hc, ?_⟩, ?_⟩
  · have := List.nodup_iff_count.1 hI.nodup c
    have := List.count_pos_iff.2 hc
    omega
  · rintro t p b hd rfl
    have hm : p.chunk ∈ (w.pc t).owns := by rw [hd]; simp [EncPc.owns]
    exact ⟨fun hp => hI.free hp hm, fun u hu hc => hu (hI.apart hc hm)⟩

theorem EncRun.trans {w w' w'' : EncWorld α E} (h : EncRun w w') (h' : EncRun w' w'') : EncRun w w'' := by
  induction h' with
  | refl => exact h
  | step _ hs ih => exact .step ih hs

/-- `t` can go on alone until it has returned -/
def CanReturn (w : EncWorld α E) (t : Nat) : Prop :=
  ∃ w', EncRun w w' ∧ (w'.pc t).Returned ∧ ∀ u, u ≠ t → w'.pc u = w.pc u

theorem CanReturn.step {w w' : EncWorld α E} {t : Nat} (h : EncStep w w') (hpc : ∀ u, u ≠ t → w'.pc u = w.pc u)
    (hr : CanReturn w' t) : CanReturn w t := by
  obtain ⟨w'', h1, h2, h3⟩ := hr
  exact ⟨w'', (EncRun.step .refl h).trans h1, h2, fun u hu => (h3 u hu).trans (hpc u hu)⟩

theorem canReturn_closing {w : EncWorld α E} {t : Nat} {ret : GoSlice} {toPool : Option Nat}
    (h : w.pc t = .closing ret toPool) : CanReturn w t :=
  ⟨_, .step .refl (.close t ret toPool h), by simp [EncPc.Returned], fun u hu => setAt_ne _ _ hu⟩

theorem canReturn_building {t : Nat} {toPool : Option Nat} {last : Option GoSlice} :
    ∀ (todo : List GoSlice) {w : EncWorld α E} {ret : GoSlice}, w.pc t = .building ret todo last toPool → CanReturn w t
  | [], w, ret, h => .step (.copyLast t ret last toPool h) (fun u hu => setAt_ne _ _ hu) (canReturn_closing (setAt_same _ _ _))
  | p :: todo, w, ret, h => by
    refine .step (.copy t ret p todo last toPool h) (fun u hu => setAt_ne _ _ hu) ?_
    refine .step (.give t _ _ todo last toPool (setAt_same _ _ _)) (fun u hu => setAt_ne _ _ hu) ?_
    exact canReturn_building todo (setAt_same _ _ _)

theorem texts_length {mem : Nat → List α} : ∀ {ps : List GoSlice}, Inside mem ps → (texts mem ps).length = total ps
  | [], _ => by simp [texts, total]
  | p :: ps, h => by
    have h1 := read_length (h p (by simp))
    have h2 := texts_length (mem := mem) (ps := ps) fun q hq => h q (by simp [hq])
    simp only [texts, total, List.flatMap_cons, List.length_append, List.foldr_cons] at h2 ⊢
    omega

theorem canReturn_writing {t : Nat} : ∀ (todo : Writing α E) {w : EncWorld α E} {b : ChunkBuf}, EncInv calls w →
    w.pc t = .writing b todo → CanReturn w t
  | .ret (some e), w, b, _, h =>
    ⟨_, .step .refl (.fail t b e h), by simp [EncPc.Returned], fun u hu => setAt_ne _ _ hu⟩
  | .ret none, w, ⟨[], last, toPool⟩, _, h =>
    ⟨_, .step .refl (.buildOne t last toPool h), by simp [EncPc.Returned], fun u hu => setAt_ne _ _ hu⟩
  | .ret none, w, ⟨p :: bufs, last, toPool⟩, hI, h => by
    have hok := hI.ok t
    rw [h] at hok
    refine .step (.buildMany t p bufs last toPool (texts w.mem ((p :: bufs) ++ last.toList)) h ?_)
      (fun u hu => setAt_ne _ _ hu) (canReturn_building (p :: bufs) (setAt_same _ _ _))
    rw [texts_length hok.1]
    exact Nat.le_refl _
  | .write s rest, w, b, hI, h => by
    have some_case : ∀ {w : EncWorld α E} {bufs p toPool}, EncInv calls w →
        w.pc t = .writing ⟨bufs, some p, toPool⟩ (.write s rest) → CanReturn w t := by
      intro w bufs p toPool hI h
      by_cases hfit : p.len + s.length ≤ (w.mem p.chunk).length
      · have h' : w.pc t = .writing ⟨bufs, some p, toPool⟩ (.write (s ++ []) rest) := by rw [List.append_nil]; exact h
        refine .step (.append t bufs p toPool s [] rest h' hfit) (fun u hu => setAt_ne _ _ hu) ?_
        refine .step (.wrote t _ rest (setAt_same _ _ _)) (fun u hu => setAt_ne _ _ hu) ?_
        exact canReturn_writing rest
          (encInv_step (encInv_step hI (.append t bufs p toPool s [] rest h' hfit)) (.wrote t _ rest (setAt_same _ _ _))) (setAt_same _ _ _)
      · refine .step (.move t bufs p toPool s rest [] h (by omega)) (fun u hu => setAt_ne _ _ hu) ?_
        exact canReturn_writing rest (encInv_step hI (.move t bufs p toPool s rest [] h (by omega))) (setAt_same _ _ _)
    obtain ⟨bufs, buf, toPool⟩ := b
    cases buf with
    | some p => exact some_case hI h
    | none =>
      have hok := hI.ok t
      rw [h] at hok
      have := hok.2.1.1 rfl
      simp only at this
      subst this
      refine .step (.getNew t bufs _ [] h) (fun u hu => setAt_ne _ _ hu) ?_
      exact some_case (encInv_step hI (.getNew t bufs _ [] h)) (setAt_same _ _ _)

/-- **No call waits for another**: at any moment, a call that has not returned can go on until
it returns, without a step of any other call. -/
theorem C72_never_blocked {w : EncWorld α E} (h : EncReached calls w) (t : Nat) :
    ∃ w', EncRun w w' ∧ (w'.pc t).Returned ∧ ∀ u, u ≠ t → w'.pc u = w.pc u := by
  have hI := encInv_reached h
  cases hp : w.pc t with
  | writing b todo => exact canReturn_writing todo hI hp
  | building ret todo last toPool => exact canReturn_building todo hp
  | giving ret c todo last toPool =>
    exact CanReturn.step (.give t ret c todo last toPool hp) (fun u hu => setAt_ne _ _ hu) (canReturn_building todo (setAt_same _ _ _))
  | closing ret toPool => exact canReturn_closing hp
  | done r b => exact ⟨w, .refl, by rw [hp]; trivial, fun _ _ => rfl⟩
  | failed e => exact ⟨w, .refl, by rw [hp]; trivial, fun _ _ => rfl⟩

end

/-! ## With the generated methods -/

section
variable [Ext]

/-- `body` is the `MarshalTo` of type `n` on the receiver `recv`: alone it writes the bytes of the
text `MarshalJSON` returns, or ends with its error. -/
def WritesLikeMarshal (Γ : Env) (n : Nat) (recv : Option GoVal) (body : Writing UInt8 EErr) : Prop :=
  (body.alone.2 = none → ∃ s, Marshals Γ n recv (.ok s) ∧ body.alone.1 = utf8 s) ∧
  ∀ e, body.alone.2 = some e → Marshals Γ n recv (.error e)

/-- **Any number of concurrent calls `x.MarshalJSON()`**, of any generated types, also of the same
value: whatever the schedule, every call that has returned has the error or the bytes that
`MarshalJSON` has when nothing else runs. -/
theorem C72_marshal {Γ : Env} {calls : Nat → Writing UInt8 EErr} {typ : Nat → Nat} {recv : Nat → Option GoVal}
    {w : EncWorld UInt8 EErr} (hc : ∀ t, WritesLikeMarshal Γ (typ t) (recv t) (calls t)) (h : EncReached calls w) (t : Nat) :
    (∀ r, w.pc t = .done r false → ∃ s, Marshals Γ (typ t) (recv t) (.ok s) ∧ w.bytes r = utf8 s) ∧
    (∀ e, w.pc t = .failed e → Marshals Γ (typ t) (recv t) (.error e)) := by
  refine ⟨fun r hd => ?_, fun e hd => (hc t).2 e ((C72_error h).1 e hd)⟩
  have := C72_as_if_alone h hd
  obtain ⟨s, h1, h2⟩ := (hc t).1 (by rw [this])
  exact ⟨s, h1, by rw [← h2, this]⟩

/-- Every value that can be encoded has such a body: `C72_marshal` speaks about all of them. -/
theorem writesLikeMarshal_exists {Γ : Env} {n : Nat} {recv : Option GoVal} {r : Except EErr Str} (h : Marshals Γ n recv r) :
    ∃ body, WritesLikeMarshal Γ n recv body := by
  cases r with
  | ok s => exact ⟨.write (utf8 s) (.ret none), fun _ => ⟨s, h, by simp [Writing.alone]⟩, fun e he => by cases he⟩
  | error e => exact ⟨.ret (some e), (fun hn => by cases hn), fun e' he => by cases he; exact h⟩

end

namespace Examples

section
open Sample
attribute [local instance] Sample.ext

/-- The hypotheses of `C72_marshal` are met by the big sample document. -/
example : ∃ body, WritesLikeMarshal Γ 3 (some docVal) body := by
  obtain ⟨s, h⟩ := C46_encode_succeeds_partial full_set full_fine (by decide) doc_typed doc_noNilUUID (times_ok _ _)
  exact writesLikeMarshal_exists h

end

/-- The first call writes `abc`, the others `xy`. -/
def threeCalls : Nat → Writing Char Unit := fun t =>
  if t = 0 then .write ['a', 'b'] (.write ['c'] (.ret none)) else .write ['x', 'y'] (.ret none)

/-- Call 0 fills chunk 0 with `ab`, goes over to chunk 1 for `c`, and puts the text together in
chunk 2; call 1 gets chunk 0 while call 0 is not yet finished, and returns it as its result; the
caller of call 1 overwrites it.  The result of call 0 is `abc` all the same. -/
theorem C72_schedule : ∃ w, EncReached threeCalls w ∧
    w.pc 0 = .done (some ⟨2, 3⟩) false ∧ w.bytes (some ⟨2, 3⟩) = ['a', 'b', 'c'] ∧
    w.pc 1 = .done (some ⟨0, 2⟩) true ∧ w.bytes (some ⟨0, 2⟩) = ['!', '!'] := by
  refine ⟨_, .step (.step (.step (.step (.step (.step (.step (.step (.step (.step (.step (.step
    (.step (.step (.step (.step (.step .refl
    (.getNew 0 [] _ ['0', '0'] rfl))
    (.append 0 [] ⟨0, 0⟩ (some 0) ['a', 'b'] [] (.write ['c'] (.ret none)) rfl (by decide)))
    (.wrote 0 _ _ rfl))
    (.retire 0 [] ⟨0, 2⟩ 0 _ rfl (by decide)))
    (.getNew 0 [⟨0, 2⟩] _ ['0', '0'] rfl))
    (.append 0 [⟨0, 2⟩] ⟨1, 0⟩ (some 1) ['c'] [] (.ret none) rfl (by decide)))
    (.wrote 0 _ _ rfl))
    (.buildMany 0 ⟨0, 2⟩ [] (some ⟨1, 1⟩) (some 1) ['0', '0', '0'] rfl (by decide)))
    (.copy 0 ⟨2, 0⟩ ⟨0, 2⟩ [] (some ⟨1, 1⟩) (some 1) rfl))
    (.give 0 ⟨2, 2⟩ 0 [] (some ⟨1, 1⟩) (some 1) rfl))
    (.getPooled 1 [] _ 0 rfl (by decide)))
    (.append 1 [] ⟨0, 0⟩ (some 0) ['x', 'y'] [] (.ret none) rfl (by decide)))
    (.copyLast 0 ⟨2, 2⟩ (some ⟨1, 1⟩) (some 1) rfl))
    (.wrote 1 _ _ rfl))
    (.buildOne 1 (some ⟨0, 2⟩) (some 0) rfl))
    (.touch 1 ⟨0, 2⟩ false ['!', '!'] rfl))
    (.close 0 ⟨2, 3⟩ (some 1) rfl), rfl, rfl, rfl, rfl⟩

end Examples

end VJ
