import Verif.Proof.Mono
import Verif.Spec.Append

/-!
# Encoders only append
-/

namespace VJ

theorem W.raw_after (p : Str) (w : W) (s : Str) : (w.after p).raw s = (w.raw s).after p := by
  simp [W.after, W.raw]

theorem W.rawData_after (p : Str) (w : W) (s : Str) (e : Option EErr) : (w.after p).rawData s e = (w.rawData s e).after p := by
  obtain ⟨b, err⟩ := w
  cases err <;> cases e <;> simp only [W.after, W.rawData, W.raw] <;> (try split) <;> simp

namespace Tame

variable {α β γ : Type}

theorem pure (a : α) : Tame (fun w => .ok (a, w)) := ⟨fun _ _ => rfl, fun _ _ _ _ h hx => by cases h; exact hx⟩

theorem raw (a : α) (s : Str) : Tame (fun w => .ok (a, w.raw s)) :=
  ⟨fun p w => by simp [Out.after, W.raw_after], fun _ _ _ _ h hx => by cases h; exact hx⟩

theorem rawData (a : α) (s : Str) (e : Option EErr) : Tame (fun w => .ok (a, w.rawData s e)) :=
  ⟨fun p w => by simp [Out.after, W.rawData_after], fun _ _ _ _ h hx => by cases h; simp only [W.rawData, hx]⟩

theorem stop {o : Out (α × W)} (h : o = .panic ∨ o = .loop ∨ o = .unsupp) : Tame (fun _ => o) := by
  rcases h with h | h | h <;> subst h <;> exact ⟨fun _ _ => rfl, fun _ _ _ _ h => by cases h⟩

theorem unsupp : Tame (fun _ => (.unsupp : Out (α × W))) := stop (by simp)

theorem err (f : Option EErr → α) : Tame (fun w => .ok (f w.err, w)) :=
  ⟨fun _ _ => rfl, fun _ _ _ _ h hx => by cases h; exact hx⟩

theorem errRaw (f : Option EErr → α) (s : Str) : Tame (fun w => .ok (f w.err, w.raw s)) :=
  ⟨fun p w => by simp [Out.after, W.raw, W.after], fun _ _ _ _ h hx => by cases h; exact hx⟩

theorem pre {f : W → Out (α × W)} (h : Tame f) (s : Str) : Tame (fun w => f (w.raw s)) :=
  ⟨fun p w => by rw [W.raw_after, h.frame], fun w a w' x hf hx => h.keeps _ a w' x hf hx⟩

theorem bind {f : W → Out (α × W)} {g : α → W → Out (β × W)} (h : Tame f) (hg : ∀ a, Tame (g a)) :
    Tame (fun w => f w >>= fun r => g r.1 r.2) := by
  constructor
  · intro p w
    show (f (w.after p) >>= _) = _
    rw [h.frame]
    cases f w with
    | ok r => exact (hg r.1).frame p r.2
    | _ => rfl
  · intro w b w' x hf hx
    obtain ⟨⟨a, w1⟩, h1, h2⟩ := Out.bind_eq_ok.1 hf
    exact (hg a).keeps _ _ _ _ h2 (h.keeps _ _ _ _ h1 hx)

theorem const {o : Out γ} {g : γ → W → Out (β × W)} (hg : ∀ a, Tame (g a)) : Tame (fun w => o >>= fun a => g a w) := by
  cases o with
  | ok a => exact hg a
  | panic => exact stop (by simp)
  | loop => exact stop (by simp)
  | unsupp => exact stop (by simp)

end Tame

/-- the errors wrapped or returned at the end -/
theorem tame_tail {f : W → Out (Option EErr × W)} (h : Tame f) (s : Str) :
    Tame (fun w => f w >>= fun r => match r.1 with
      | some e => (.ok (some e, r.2) : Out (Option EErr × W))
      | none => .ok (none, r.2.raw s)) :=
  Tame.bind (g := fun e w => match e with
    | some e => (.ok (some e, w) : Out (Option EErr × W))
    | none => .ok (none, w.raw s)) h fun e => by
    cases e with
    | none => exact .raw _ _
    | some e => exact .pure _

theorem writeElems_tame {f : Nat → GoVal → W → Out (Option EErr × W)} (hf : ∀ i v, Tame (f i v)) :
    ∀ (vs : List GoVal) (i : Nat) (sep : Bool), Tame (writeElems f i sep vs)
  | [], i, sep => .pure _
  | v :: vs, i, sep => by
    have h1 : Tame (fun w => f i v (if sep then w.raw [','] else w)) := by
      cases sep with
      | true => exact (hf i v).pre _
      | false => exact hf i v
    refine Tame.bind (g := fun e w => match e with
      | some e => (.ok (some e, w) : Out (Option EErr × W))
      | none => writeElems f (i + 1) true vs w) h1 fun e => ?_
    cases e with
    | none => exact writeElems_tame hf vs _ _
    | some e => exact .pure _

theorem writeMembers_tame {f : Str → GoVal → W → Out (Option EErr × W)} (hf : ∀ i v, Tame (f i v)) :
    ∀ (kvs : List (Str × GoVal)) (sep : Bool), Tame (writeMembers f sep kvs)
  | [], sep => .pure _
  | (k, v) :: kvs, sep => by
    have h0 : Tame (fun w => f k v ((w.raw (jsonStr k)).raw [':'])) := ((hf k v).pre _).pre _
    have h1 : Tame (fun w => f k v (((if sep then w.raw [','] else w).string k).raw [':'])) := by
      cases sep with
      | true => exact h0.pre _
      | false => exact h0
    refine Tame.bind (g := fun e w => match e with
      | some e => (.ok (some e, w) : Out (Option EErr × W))
      | none => writeMembers f true kvs w) h1 fun e => ?_
    cases e with
    | none => exact writeMembers_tame hf kvs _
    | some e => exact .pure _

section
variable [Ext] {M : Nat → Methods} (hM : ∀ n r, Tame ((M n).marshalTo r))
include hM

theorem runVExt_tame (x : VExt) : ∀ (label : ECtx) (v : GoVal), Tame (runVExt M label x v) := by
  induction x with
  | call n =>
    intro label v
    exact Tame.bind (g := fun e w => .ok (EErr.wrap? label e, w)) (hM n _) fun e => .pure _
  | callPtr n =>
    intro label v
    cases v with
    | nil => exact Tame.bind (g := fun e w => .ok (EErr.wrap? label e, w)) (hM n _) fun e => .pure _
    | ptr v => exact Tame.bind (g := fun e w => .ok (EErr.wrap? label e, w)) (hM n _) fun e => .pure _
    | _ => exact .unsupp
  | star x ih =>
    intro label v
    cases v with
    | ptr v => exact ih _ _
    | nil => exact .raw _ _
    | _ => exact .unsupp
  | arr x ih =>
    intro label v
    cases v with
    | nil => exact .raw _ _
    | slice elems spare => exact tame_tail ((writeElems_tame (fun _ v => ih label v) elems 0 false).pre _) _
    | arr elems => exact tame_tail ((writeElems_tame (fun _ v => ih label v) elems 0 false).pre _) _
    | _ => exact .unsupp
  | _ => intro label v; cases v <;> first | exact .unsupp | exact .raw _ _

theorem writeList_tame (name : Str) (x : VExt) (vs : List GoVal) : Tame (writeList M name x vs) :=
  tame_tail ((writeElems_tame (fun _ v => runVExt_tame hM x _ v) vs 0 false).pre _) _

theorem writeMap_tame (name : Str) (x : VExt) (kvs : List (Str × GoVal)) : Tame (writeMap M name x kvs) :=
  tame_tail ((writeMembers_tame (fun _ v => runVExt_tame hM x _ v) kvs false).pre _) _

theorem runBody_tame (name : Str) (b : Body) (v : GoVal) : Tame (runBody M name b v) := by
  cases b with
  | prim pw d =>
    refine Tame.const (g := fun (v : GoVal) (w : W) => match pw, v with
      | .int, .int i => .ok (none, (w.raw (keyText name)).raw (intStr i))
      | .float, .float f => .ok (none, (w.raw (keyText name)).raw (Ext.fmtFloat f))
      | .str, .str s => .ok (none, (w.raw (keyText name)).string s)
      | _, _ => .unsupp) fun v => ?_
    cases pw <;> cases v <;> first | exact .unsupp | exact (Tame.raw _ _).pre _
  | boolTrue => exact .raw _ _
  | refBool d =>
    refine Tame.const (g := fun (v : GoVal) (w : W) => match v with
      | .bool b => .ok (none, w.raw (keyText name ++ boolText b))
      | _ => .unsupp) fun v => ?_
    cases v <;> first | exact .unsupp | exact .raw _ _
  | time layout d =>
    refine Tame.const (g := fun (v : GoVal) (w : W) => match v with
      | .time t => .ok (none, (w.raw (keyText name)).raw (timeQuoted layout t))
      | _ => .unsupp) fun v => ?_
    cases v <;> first | exact .unsupp | exact (Tame.raw _ _).pre _
  | uuid star =>
    refine Tame.const (g := fun (v : GoVal) (w : W) => match v with
      | .uuid b => .ok (none, w.raw (keyText name ++ '"' :: (uuidText b ++ ['"'])))
      | _ => .unsupp) fun v => ?_
    cases v <;> first | exact .unsupp | exact .raw _ _
  | struct n star =>
    refine Tame.const (g := fun (v : GoVal) (w : W) => (M n).marshalTo (some v) (w.raw (keyText name)) >>= fun r => .ok (EErr.wrap? (.attr name) r.1, r.2)) fun v => ?_
    exact Tame.bind (g := fun e w => .ok (EErr.wrap? (.attr name) e, w)) ((hM n _).pre _) fun e => .pure _
  | inline n =>
    exact Tame.const (g := fun r w => .ok (none, w.rawData (unpackObject r).1 (unpackObject r).2)) fun r => .rawData _ _ _
  | map x =>
    cases v with
    | map kvs => exact (writeMap_tame hM name x kvs).pre _
    | _ => exact .unsupp
  | arr x =>
    cases v with
    | slice elems spare => exact (writeList_tame hM name x elems).pre _
    | arr elems => exact (writeList_tame hM name x elems).pre _
    | _ => exact .unsupp
  | bytes =>
    cases v with
    | bytes b => exact (Tame.raw _ _).pre _
    | barr b => exact (Tame.raw _ _).pre _
    | _ => exact .unsupp

theorem runBlk_tame (b : Blk) (v : GoVal) (wc : Bool) :
    Tame (fun w => runBlk M b v wc w >>= fun r => .ok ((r.1, r.2.1), r.2.2)) := by
  have hb : Tame (fun w => runBody M b.name b.body v (putComma wc w) >>= fun r => .ok ((r.1, true), r.2)) := by
    refine Tame.bind (g := fun e w => .ok ((e, true), w)) (f := fun w => runBody M b.name b.body v (putComma wc w)) ?_ fun e => .pure _
    cases wc with
    | true => exact (runBody_tame hM _ _ _).pre _
    | false => exact runBody_tame hM _ _ _
  unfold runBlk
  cases b.cond with
  | none => simpa only [Out.bind_assoc, Out.pure_eq, Out.ok_bind] using hb
  | some c =>
    simp only [Out.bind_assoc]
    refine Tame.const (g := fun nz w => _) fun nz => ?_
    cases nz with
    | true => simpa only [if_true, Out.bind_assoc, Out.pure_eq, Out.ok_bind] using hb
    | false =>
      simp only [Bool.false_eq_true, if_false]
      rcases b.ifZero with _ | ⟨t, sets⟩
      · exact .pure (none, wc)
      · cases wc with
        | true => exact (Tame.raw (none, true || sets) _).pre _
        | false => exact .raw (none, false || sets) _

theorem runBlks_tame (bs : List Blk) : ∀ vs wc, Tame (runBlks M bs vs wc) := by
  induction bs with
  | nil => intro vs wc; cases vs <;> first | exact .pure _ | exact .unsupp
  | cons b bs ih =>
    intro vs wc
    cases vs with
    | nil => exact .unsupp
    | cons v vs =>
      have := Tame.bind (g := fun a w => match a.1 with
        | some e => (.ok (some e, w) : Out (Option EErr × W))
        | none => runBlks M bs vs a.2 w) (runBlk_tame hM b v wc) fun a => by
          obtain ⟨e, wc'⟩ := a
          cases e with
          | some e => exact .pure _
          | none => exact ih _ _
      simp only [Out.bind_assoc, Out.ok_bind] at this
      exact this

theorem runMarshal_tame (ir : MarshalIR) (r : Option GoVal) : Tame (runMarshal M ir r) := by
  have tail : ∀ {f : W → Out (Option EErr × W)}, Tame f → Tame (fun w => f w >>= fun r => match r.1 with
      | some e => (.ok (some e, r.2) : Out (Option EErr × W))
      | none => .ok (r.2.err, r.2)) := fun h =>
    Tame.bind (g := fun e w => match e with
      | some e => (.ok (some e, w) : Out (Option EErr × W))
      | none => .ok (w.err, w)) h fun e => by
      cases e with
      | none => exact .err id
      | some e => exact .pure _
  cases ir with
  | struct bs =>
    cases bs with
    | nil => exact .raw _ _
    | cons b bs =>
      cases r with
      | none => exact .raw _ _
      | some v =>
        cases v with
        | struct vs =>
          refine Tame.bind (f := fun w => runBlks M (b :: bs) vs false (w.raw ['{'])) (g := fun e w => match e with
            | some e => (.ok (some e, w) : Out (Option EErr × W))
            | none => .ok (w.err, w.raw ['}'])) ((runBlks_tame hM _ _ _).pre _) fun e => ?_
          cases e with
          | none => exact .errRaw id _
          | some e => exact .pure _
        | _ => exact .unsupp
  | map x =>
    cases r with
    | none => exact .raw _ _
    | some v =>
      cases v with
      | nil => exact .raw _ _
      | map kvs => exact tail (writeMap_tame hM _ _ _)
      | _ => exact .unsupp
  | list fixed x =>
    cases r with
    | none => exact .raw _ _
    | some v =>
      cases v with
      | nil => cases fixed <;> first | exact .unsupp | exact .raw _ _
      | slice es sp => exact tail (writeList_tame hM _ _ _)
      | arr es => exact tail (writeList_tame hM _ _ _)
      | _ => exact .unsupp
  | bytes fixed =>
    cases r with
    | none => exact .raw _ _
    | some v =>
      cases v with
      | nil => cases fixed <;> first | exact .unsupp | exact .raw _ _
      | bytes b => exact .raw _ _
      | barr b => exact .raw _ _
      | _ => exact .unsupp
  | prim p =>
    cases r with
    | none => exact .raw _ _
    | some v => cases p <;> cases v <;> first | exact .unsupp | exact .raw _ _
  | time =>
    cases r with
    | none => exact .raw _ _
    | some v =>
      cases v with
      | time t =>
        have e : runMarshal M .time (some (.time t)) = fun w => match Ext.timeText t with
          | some s => .ok (none, w.raw ('"' :: (s ++ ['"'])))
          | none => .ok (some ⟨[], codeTimeText⟩, w) := rfl
        rw [e]
        cases Ext.timeText t with
        | none => exact .pure _
        | some s => exact .raw _ _
      | _ => exact .unsupp
  | uuid =>
    cases r with
    | none => exact .raw _ _
    | some v => cases v <;> first | exact .unsupp | exact .raw _ _
  | call n =>
    cases r with
    | none => exact .raw _ _
    | some v => exact hM n _

end

theorem methods_tame [Ext] {Γ : Env} (hF : ForeignTame Γ) : ∀ (k n : Nat) (r : Option GoVal), Tame ((Γ.methods k n).marshalTo r)
  | 0, n, r => .stop (.inr (.inl rfl))
  | k + 1, n, r => by
    unfold Env.methods
    cases hd : Γ.decl n with
    | none => exact hF n r hd
    | some d =>
      exact Tame.const (o := genMarshal Γ d) (g := fun ir w => runMarshal (Γ.methods k) ir r w) fun ir =>
        runMarshal_tame (fun n r => methods_tame hF k n r) ir r

end VJ
