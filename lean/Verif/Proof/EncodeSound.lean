import Verif.Proof.EncodeField

/-!
# Encoding is right
-/

namespace VJ

variable [Ext] {Γ : Env} {X : Nat → GoVal → Prop} {S : Nat → Prop} {F : Nat → Option GoVal → JV → Prop}

/-! ### structs -/

/-- what is known of a field and its value -/
structure FieldOK (Γ : Env) (X : Nat → GoVal → Prop) (S : Nat → Prop) (F : Nat → Option GoVal → JV → Prop) (fd : FieldDecl) (v : GoVal) : Prop where
  good : EGood Γ S fd.typ
  key : PlainText fd.tags.jsonName
  layouts : (∀ tm, PlainText (Ext.fmtTime (writeLayout fd.tags.layout) tm)) ∧ PlainText (Ext.fmtTime (zeroLayout fd.tags.layout) .zero)
  typed : HasType Γ X fd.typ v
  fine : ¬ Omitted Γ fd v → Fine Γ F fd.typ v
  splice : ∀ n jv, fd.tags.jsonName = [] → ByMethod Γ fd.typ n → IsZeroIs Γ n v false → Enc Γ F (.decl n) v jv → ∃ kv kvs, jv = .obj (kv :: kvs)

/-- every comma that is due comes: `started`: something was written before these fields -/
def CommaInv (Γ : Env) (fds : List FieldDecl) (gs : List GoVal) (started wc : Bool) : Prop :=
  ∀ (j : Nat) (fd : FieldDecl) (g : GoVal), fds[j]? = some fd → gs[j]? = some g → ¬ Omitted Γ fd g →
    (started = true ∨ ∃ (i : Nat) (fi : FieldDecl) (gi : GoVal), i < j ∧ fds[i]? = some fi ∧ gs[i]? = some gi ∧ ¬ Omitted Γ fi gi) →
    wc = true ∨ ∃ (l : Nat) (fl : FieldDecl) (gl : GoVal), l < j ∧ fds[l]? = some fl ∧ gs[l]? = some gl ∧ ¬ Omitted Γ fl gl ∧ ¬ Forgotten Γ fl gl

theorem blks_sound {M : Nat → Methods} (hP : EncPackage Γ F S) (hM : MSound Γ F X S M)
    (hZ : ∀ n v b, (M n).isZero v = .ok b → IsZeroIs Γ n v b) (hT : ∀ n r, Tame ((M n).marshalTo r)) :
    ∀ {fds : List FieldDecl} {gs : List GoVal} {bs : List Blk}, genBlks Γ fds = .ok bs →
    (∀ (i : Nat) (fd : FieldDecl) (g : GoVal), fds[i]? = some fd → gs[i]? = some g → FieldOK Γ X S F fd g) →
    ∀ {started wc : Bool} {w w' : W}, (wc = true → started = true) → CommaInv Γ fds gs started wc → w.err = none → w'.err = none →
    runBlks M bs gs wc w = .ok (none, w') →
    ∃ mss : List (List Mem), mss.length = fds.length ∧ gs.length = fds.length ∧
      (∀ (i : Nat) (fd : FieldDecl) (g : GoVal) (ms : List Mem), fds[i]? = some fd → gs[i]? = some g → mss[i]? = some ms →
        Enc Γ F (.field fd) g (.obj (ms.map (·.1)))) ∧
      (∀ m ∈ mss.flatten, MemOK m) ∧
      w' = w.raw (if started then commaed (mss.flatten.map (·.2.text)) else joinComma (mss.flatten.map (·.2.text)))
  | [], gs, bs, hg, hok, started, wc, w, w', hs, hc, hw, hw', hr => by
    cases hg
    cases gs with
    | nil =>
      cases hr
      exact ⟨[], rfl, rfl, by simp, by simp, by cases started <;> simp [commaed, joinComma, W.raw_nil]⟩
    | cons => cases hr
  | fd :: fds, gs, bs, hg, hok, started, wc, w, w', hs, hc, hw, hw', hr => by
    rw [genBlks] at hg
    obtain ⟨b, hb, hg⟩ := Out.bind_eq_ok.1 hg
    obtain ⟨bs', hbs, hg⟩ := Out.bind_eq_ok.1 hg
    cases hg
    cases gs with
    | nil => cases hr
    | cons g gs =>
      rw [runBlks] at hr
      obtain ⟨⟨e, wc1, w1⟩, h1, h2⟩ := Out.bind_eq_ok.1 hr
      cases e with
      | some e => cases h2
      | none =>
        have h2' : runBlks M bs' gs wc1 w1 = .ok (none, w') := h2
        have hw1 : w1.err = none := by
          cases he : w1.err with
          | none => rfl
          | some x =>
            have := (runBlks_tame hT bs' gs wc1).keeps w1 none w' x h2' he
            rw [hw'] at this; cases this
        have hfd := hok 0 fd g rfl rfl
        obtain ⟨k, hplan⟩ := blk_plan hP.toTypeSet hfd.good hb
        have hok' : ∀ (i : Nat) (fd : FieldDecl) (g : GoVal), fds[i]? = some fd → gs[i]? = some g → FieldOK Γ X S F fd g :=
          fun i fd g h h' => hok (i + 1) fd g h h'
        cases blk_sound hP hM hZ hplan hfd.good hfd.key hfd.layouts hfd.typed hfd.fine hfd.splice hw hw1 h1 with
        | omitted ho =>
          have hc' : CommaInv Γ fds gs started wc := by
            intro j fj gj hfj hgj hno hpre
            rcases hc (j + 1) fj gj hfj hgj hno (by
              rcases hpre with h | ⟨i, fi, gi, hi, h3, h4, h5⟩
              · exact .inl h
              · exact .inr ⟨i + 1, fi, gi, by omega, h3, h4, h5⟩) with h | ⟨l, fl, gl, hl, h3, h4, h5, h6⟩
            · exact .inl h
            · cases l with
              | zero => cases h3; cases h4; exact absurd ho h5
              | succ l => exact .inr ⟨l, fl, gl, by omega, h3, h4, h5, h6⟩
          obtain ⟨mss, hl1, hl2, he, hm, hw2⟩ := blks_sound hP hM hZ hT hbs hok' hs hc' hw hw' h2'
          refine ⟨[] :: mss, by simp [hl1], by simp [hl2], ?_, by simpa using hm, by simpa using hw2⟩
          intro i fi gi ms h3 h4 h5
          cases i with
          | zero => cases h3; cases h4; cases h5; exact .omitted ho
          | succ i => exact he i fi gi ms h3 h4 h5
        | written hne hno hmok henc hwc =>
          rename_i ms
          have hwc1 : wc = true → wc1 = true := by
            intro h
            rcases hwc with h' | ⟨h', -⟩
            · exact h'
            · exact h'.trans h
          have hc' : CommaInv Γ fds gs true wc1 := by
            intro j fj gj hfj hgj hnoj _
            rcases hc (j + 1) fj gj hfj hgj hnoj (.inr ⟨0, fd, g, by omega, rfl, rfl, hno⟩) with h | ⟨l, fl, gl, hl, h3, h4, h5, h6⟩
            · exact .inl (hwc1 h)
            · cases l with
              | zero =>
                cases h3; cases h4
                rcases hwc with h' | ⟨-, h'⟩
                · exact .inl h'
                · exact absurd h' h6
              | succ l => exact .inr ⟨l, fl, gl, by omega, h3, h4, h5, h6⟩
          obtain ⟨mss, hl1, hl2, he, hm, hw2⟩ := blks_sound hP hM hZ hT hbs hok' (fun _ => rfl) hc' hw1 hw' h2'
          refine ⟨ms :: mss, by simp [hl1], by simp [hl2], ?_, ?_, ?_⟩
          · intro i fi gi ms' h3 h4 h5
            cases i with
            | zero => cases h3; cases h4; cases h5; exact henc
            | succ i => exact he i fi gi ms' h3 h4 h5
          · intro m h
            rw [List.flatten_cons, List.mem_append] at h
            rcases h with h | h
            · exact hmok m h
            · exact hm m h
          · obtain ⟨m, ms, rfl⟩ := List.exists_cons_of_ne_nil hne
            rw [hw2, List.flatten_cons, List.map_append]
            cases started with
            | true =>
              have : wc = true := by
                rcases hc 0 fd g rfl rfl hno (.inl rfl) with h | ⟨l, _, _, hl, _⟩
                · exact h
                · omega
              subst this
              simp only [putComma, if_true, W.raw_raw]
              rw [commaed_append]
              congr 1
              simp [joinComma_cons, commaed]
            | false =>
              have : wc = false := by
                cases wc with
                | false => rfl
                | true => cases hs rfl
              subst this
              simp only [putComma, Bool.false_eq_true, if_false, if_true, W.raw_raw]
              congr 1
              rw [List.map_cons, List.cons_append, joinComma_cons, joinComma_cons, commaed_append, List.append_assoc]

omit [Ext] in
theorem genBlks_nil [Ext] {fds : List FieldDecl} (h : genBlks Γ fds = .ok []) : fds = [] := by
  cases fds with
  | nil => rfl
  | cons fd fds =>
    rw [genBlks] at h
    obtain ⟨b, -, h⟩ := Out.bind_eq_ok.1 h
    obtain ⟨bs', -, h⟩ := Out.bind_eq_ok.1 h
    cases h

theorem struct_doc {M : Nat → Methods} (hP : EncPackage Γ F S) (hM : MSound Γ F X S M)
    (hZ : ∀ n v b, (M n).isZero v = .ok b → IsZeroIs Γ n v b) (hT : ∀ n r, Tame ((M n).marshalTo r))
    {n : Nat} {strict : Bool} {fields : List FieldDecl} (hn : S n) (hd : Γ.decl n = some (.struct strict fields)) {bs : List Blk}
    (hg : genBlks Γ fields = .ok bs) {v : GoVal} (hv : HasType Γ X (.named n) v) (hf : Fine Γ F (.named n) v) {w w' : W} (hw : w.err = none)
    (hr : runMarshal M (.struct bs) (some v) w = .ok (none, w')) :
    ∃ ms : List Mem, (∀ m ∈ ms, MemOK m) ∧ Enc Γ F (.decl n) v (.obj (ms.map (·.1))) ∧
      w' = w.raw ('{' :: (joinComma (ms.map (·.2.text)) ++ ['}'])) := by
  obtain ⟨gs, rfl, hl, ht⟩ := hv.of_struct (.named n) hd
  cases bs with
  | nil =>
    cases genBlks_nil hg
    cases List.length_eq_zero_iff.1 hl
    cases hr
    exact ⟨[], by simp, .struct (ms := []) hd rfl rfl (by simp), rfl⟩
  | cons b bs =>
    have hr' : (runBlks M (b :: bs) gs false (w.raw ['{']) >>= fun r => match r.1 with
      | some e => (.ok (some e, r.2) : Out (Option EErr × W))
      | none => .ok (r.2.err, r.2.raw ['}'])) = .ok (none, w') := hr
    obtain ⟨⟨e, w1⟩, h1, h2⟩ := Out.bind_eq_ok.1 hr'
    cases e with
    | some e => cases h2
    | none =>
      simp only [Out.ok.injEq, Prod.mk.injEq] at h2
      obtain ⟨hw1, rfl⟩ := h2
      have hok : ∀ (i : Nat) (fd : FieldDecl) (g : GoVal), fields[i]? = some fd → gs[i]? = some g → FieldOK Γ X S F fd g :=
        fun i fd g h3 h4 => {
          good := hP.field hn hd (List.mem_of_getElem? h3)
          key := hP.keys n strict fields fd hn hd (List.mem_of_getElem? h3)
          layouts := hP.layouts n strict fields fd hn hd (List.mem_of_getElem? h3)
          typed := ht i fd g h3 h4
          fine := fun ho => hf.part (.field .self (.named n) hd h3 h4 ho)
          splice := fun m jv => hf.splices (.named n) n strict fields gs .self (.named n) hd i m fd g jv h3 h4 }
      have hc : CommaInv Γ fields gs false false := by
        intro j fj gj hfj hgj hno hpre
        rcases hpre with h | ⟨i, fi, gi, hi, h3, h4, h5⟩
        · cases h
        · exact .inr (hf.commas (.named n) n strict fields gs .self (.named n) hd i j fi fj gi gj hi h3 h4 hfj hgj h5 hno)
      obtain ⟨mss, hl1, hl2, he, hm, rfl⟩ := blks_sound hP hM hZ hT hg hok (by simp) hc (w := w.raw ['{']) hw hw1 h1
      refine ⟨mss.flatten, hm, ?_, by simp [W.raw_raw]⟩
      rw [List.map_flatten]
      refine .struct hd hl (by simp [hl1]) ?_
      intro i fd g m h3 h4 h5
      rw [List.getElem?_map, Option.map_eq_some_iff] at h5
      obtain ⟨ms, h5, rfl⟩ := h5
      exact he i fd g ms h3 h4 h5

theorem struct_sound {M : Nat → Methods} (hP : EncPackage Γ F S) (hM : MSound Γ F X S M)
    (hZ : ∀ n v b, (M n).isZero v = .ok b → IsZeroIs Γ n v b) (hT : ∀ n r, Tame ((M n).marshalTo r))
    {n : Nat} {strict : Bool} {fields : List FieldDecl} (hn : S n) (hd : Γ.decl n = some (.struct strict fields)) {bs : List Blk}
    (hg : genBlks Γ fields = .ok bs) {v : GoVal} (hv : HasType Γ X (.named n) v) (hf : Fine Γ F (.named n) v) {w w' : W} (hw : w.err = none)
    (hr : runMarshal M (.struct bs) (some v) w = .ok (none, w')) : Wrote (Enc Γ F (.decl n) v) w w' := by
  obtain ⟨ms, h1, h2, h3⟩ := struct_doc hP hM hZ hT hn hd hg hv hf hw hr
  exact ⟨_, _, h2, json_obj h1, h3⟩

/-! ### declared types -/

/-- the generator emits an encoder for this kind of declaration -/
inductive DeclPlan (Γ : Env) : Decl → MarshalIR → Prop
  | struct {strict : Bool} {fields : List FieldDecl} {bs : List Blk} (h : genBlks Γ fields = .ok bs) : DeclPlan Γ (.struct strict fields) (.struct bs)
  | map {v : TExpr} {x : VExt} (h : ElemPlan Γ v x) : DeclPlan Γ (.alias (.map v)) (.map x)
  | slice {e : TExpr} {x : VExt} (hb : e ≠ .prim .byte) (h : ElemPlan Γ e x) : DeclPlan Γ (.alias (.slice e)) (.list false x)
  | array {n : Nat} {e : TExpr} {x : VExt} (hb : e ≠ .prim .byte) (h : ElemPlan Γ e x) : DeclPlan Γ (.alias (.array n e)) (.list true x)
  | bytes : DeclPlan Γ (.alias (.slice (.prim .byte))) (.bytes false)
  | fixedBytes {n : Nat} : DeclPlan Γ (.alias (.array n (.prim .byte))) (.bytes true)
  | time : DeclPlan Γ (.alias .time) .time
  | uuid : DeclPlan Γ (.alias .uuid) .uuid
  | prim (p : Prim) : DeclPlan Γ (.alias (.prim p)) (.prim p)
  | name {t : TExpr} {m : Nat} (h : NameOf t m) : DeclPlan Γ (.alias t) (.call m)

omit [Ext] in
theorem isByte_true {e : TExpr} (h : e.isByte = true) : e = .prim .byte := by
  cases e with
  | prim p => cases p <;> first | rfl | cases h
  | _ => cases h

theorem decl_plan (hP : TypeSet Γ S) {n : Nat} {d : Decl} {ir : MarshalIR} (hn : S n) (hd : Γ.decl n = some d)
    (h : genMarshal Γ d = .ok ir) : DeclPlan Γ d ir := by
  have guard : ∀ {e : TExpr} {fixed : Bool}, (match e, Γ.denoted e with
      | .named _, .slice _ | .sel _, .slice _ | .named _, .array _ _ | .sel _, .array _ _ => (.unsupp : Out MarshalIR)
      | _, _ => do
        let x ← valueExt Γ e (Γ.denoted e) (Γ.denoted e == TExpr.prim .string)
        return .list fixed x) = .ok ir → ∃ x, valueExt Γ e (Γ.denoted e) (Γ.denoted e == TExpr.prim .string) = .ok x ∧ ir = .list fixed x := by
    intro e fixed h
    split at h
    · cases h
    · cases h
    · cases h
    · cases h
    · obtain ⟨x, hx, h⟩ := Out.bind_eq_ok.1 h
      cases h
      exact ⟨x, hx, rfl⟩
  cases d with
  | struct strict fields =>
    obtain ⟨bs, hb, h⟩ := Out.bind_eq_ok.1 h
    cases h
    exact .struct hb
  | alias t =>
    have hg := hP.alias hn hd
    cases t with
    | map v =>
      obtain ⟨x, hx, h⟩ := Out.bind_eq_ok.1 h
      cases h
      refine .map (valueExt_plan hP (d := fieldDecStr Γ v) ?_ hg.map)
      cases v with
      | sel m => simp only [Env.denoted, Env.denotedIdent, hg.map.sel]; exact hx
      | _ => exact hx
    | slice e =>
      simp only [genMarshal] at h
      split at h
      · rename_i hb
        cases isByte_true hb
        cases h
        exact .bytes
      · rename_i hb
        obtain ⟨x, hx, rfl⟩ := guard h
        exact .slice (isByte_false (by simpa using hb)) (valueExt_plan hP hx hg.slice)
    | array len e =>
      simp only [genMarshal] at h
      split at h
      · rename_i hb
        cases isByte_true hb
        cases h
        exact .fixedBytes
      · rename_i hb
        obtain ⟨x, hx, rfl⟩ := guard h
        exact .array (isByte_false (by simpa using hb)) (valueExt_plan hP hx hg.array)
    | time => cases h; exact .time
    | uuid => cases h; exact .uuid
    | prim p => cases p <;> cases h <;> exact .prim _
    | named m => cases h; exact .name (.named m)
    | sel m => cases h; exact .name (.sel m)
    | star => cases h
    | structT => cases h

omit [Ext] in
theorem tail_ok {f : Out (Option EErr × W)} {w' : W} (h : (f >>= fun r => match r.1 with
      | some e => (.ok (some e, r.2) : Out (Option EErr × W))
      | none => .ok (r.2.err, r.2)) = .ok (none, w')) : f = .ok (none, w') := by
  obtain ⟨⟨e, w1⟩, h1, h2⟩ := Out.bind_eq_ok.1 h
  cases e with
  | some e => cases h2
  | none =>
    simp only [Out.ok.injEq, Prod.mk.injEq] at h2
    rw [h1, h2.2]

theorem decl_sound {M : Nat → Methods} (hP : EncPackage Γ F S) (hM : MSound Γ F X S M)
    (hZ : ∀ n v b, (M n).isZero v = .ok b → IsZeroIs Γ n v b) (hT : ∀ n r, Tame ((M n).marshalTo r))
    {n : Nat} {d : Decl} {ir : MarshalIR} (hn : S n) (hd : Γ.decl n = some d) (hp : DeclPlan Γ d ir)
    {v : GoVal} (hv : HasType Γ X (.named n) v) (hf : Fine Γ F (.named n) v) {w w' : W} (hw : w.err = none)
    (hr : runMarshal M ir (some v) w = .ok (none, w')) : Wrote (Enc Γ F (.decl n) v) w w' := by
  have al : ∀ {t : TExpr}, d = .alias t → HasType Γ X t v ∧ Fine Γ F t v ∧ EGood Γ S t := by
    rintro t rfl
    exact ⟨hv.of_alias (.named n) hd, hf.part (.alias .self (.named n) hd), hP.alias hn hd⟩
  cases hp with
  | struct h => exact struct_sound hP hM hZ hT hn hd h hv hf hw hr
  | map h =>
    obtain ⟨ht, hf', hg⟩ := al rfl
    rcases ht.map_cases with rfl | ⟨kvs, rfl, -, hkv⟩
    · cases hr; exact ⟨_, _, .namedNil hd (.inr ⟨_, rfl⟩), .null, rfl⟩
    · obtain ⟨jv, s, ⟨docs, rfl, h1, h2⟩, h3, rfl⟩ := writeMap_sound hP hM h hg.map hkv (fun kv hkv => hf'.part (.map .self hkv)) hw (tail_ok hr)
      exact ⟨_, _, .namedMap hd h1 h2, h3, rfl⟩
  | slice hb h =>
    obtain ⟨ht, hf', hg⟩ := al rfl
    rcases ht.slice_cases hb with rfl | ⟨es, sp, rfl, he, -⟩
    · cases hr; exact ⟨_, _, .namedNil hd (.inl ⟨_, rfl⟩), .null, rfl⟩
    · obtain ⟨jv, s, ⟨docs, rfl, h1, h2⟩, h3, rfl⟩ := writeList_sound hP hM h hg.slice he (fun kv hkv => hf'.part (.slice .self hkv)) hw (tail_ok hr)
      exact ⟨_, _, .namedList hd hb (.inl rfl) (.slice es sp) h1 h2, h3, rfl⟩
  | array hb h =>
    obtain ⟨ht, hf', hg⟩ := al rfl
    obtain ⟨es, rfl, -, he⟩ := ht.array_cases hb
    obtain ⟨jv, s, ⟨docs, rfl, h1, h2⟩, h3, rfl⟩ := writeList_sound hP hM h hg.array he (fun kv hkv => hf'.part (.array .self hkv)) hw (tail_ok hr)
    exact ⟨_, _, .namedList hd hb (.inr ⟨_, rfl⟩) (.arr es) h1 h2, h3, rfl⟩
  | bytes =>
    obtain ⟨ht, hf', hg⟩ := al rfl
    cases ht with
    | nilSlice => cases hr; exact ⟨_, _, .namedNil hd (.inl ⟨_, rfl⟩), .null, rfl⟩
    | bytes b => cases hr; exact ⟨_, _, .namedBytes b hd, jsonStr_json _, rfl⟩
    | slice hb => exact absurd rfl hb
    | alias he | struct he | foreign he => cases he
  | fixedBytes =>
    obtain ⟨ht, hf', hg⟩ := al rfl
    cases ht with
    | barr hb => cases hr; exact ⟨_, _, .namedFixed _ hd, jsonStr_json _, rfl⟩
    | array hb => exact absurd rfl hb
    | alias he | struct he | foreign he => cases he
  | time =>
    obtain ⟨ht, hf', hg⟩ := al rfl
    cases ht with
    | time tm =>
      simp only [runMarshal] at hr
      cases hs : Ext.timeText tm with
      | none => rw [hs] at hr; cases hr
      | some s =>
        rw [hs] at hr; cases hr
        exact ⟨_, _, .namedTime hd hs, quoted_json (hP.timeTexts tm s hs), rfl⟩
    | alias he | struct he | foreign he => cases he
  | uuid =>
    obtain ⟨ht, hf', hg⟩ := al rfl
    cases ht with
    | uuid hb => cases hr; exact ⟨_, _, .namedUUID _ hd, quoted_json (uuidText_plain _), rfl⟩
    | alias he | struct he | foreign he => cases he
  | prim p =>
    obtain ⟨ht, hf', hg⟩ := al rfl
    have hp := hasType_isPrim (.self p) ht
    obtain ⟨jv, h1, h2⟩ := scalar_json hp (by rintro f rfl; exact hf'.float (.self p))
    refine ⟨jv, _, .namedScalar hd h1, h2, ?_⟩
    cases hp with
    | int hw' => cases p <;> first | cases hr; rfl | cases hw'
    | _ => cases hr; rfl
  | name h =>
    obtain ⟨ht, hf', hg⟩ := al rfl
    obtain ⟨jv, s, h1, h2, h3⟩ := hM.val _ v w w' (hg.name h) (ht.name h (.named _)) (hf'.rename h (.named _)) hw hr
    exact ⟨jv, s, .namedName hd h h1, h2, h3⟩

theorem nil_sound {M : Nat → Methods} {n : Nat} {d : Decl} {ir : MarshalIR} (hd : Γ.decl n = some d) (hp : DeclPlan Γ d ir)
    {w w' : W} (hr : runMarshal M ir none w = .ok (none, w')) : Wrote (NilDoc Γ F n) w w' := by
  have null : (∀ strict, d ≠ .struct strict []) → runMarshal M ir none w = .ok (none, w.raw (str "null")) → Wrote (NilDoc Γ F n) w w' := by
    intro hs h
    rw [h] at hr; cases hr
    exact ⟨_, _, .null hd hs, .null, rfl⟩
  cases hp with
  | struct h =>
    rename_i bs
    cases bs with
    | nil =>
      cases genBlks_nil h
      cases hr
      exact ⟨_, _, .noFields hd, .obj0 ws_nil, rfl⟩
    | cons b bs =>
      refine null ?_ rfl
      rintro strict h'
      cases h'
      cases h
  | _ => exact null (by simp) rfl

theorem methods_sound (hP : EncPackage Γ F S) : ∀ k, MSound Γ F X S (Γ.methods k)
  | 0 => ⟨fun _ _ _ _ _ _ _ _ h => (by cases h), fun _ _ _ _ _ h => (by cases h)⟩
  | k + 1 => by
    have ih := methods_sound hP k
    refine ⟨?_, ?_⟩
    · intro n v w w' hn hv hf hw hr
      cases hd : Γ.decl n with
      | none =>
        rw [methods_none hd] at hr
        obtain ⟨jv, s, h1, h2, h3⟩ := hP.foreign n (some v) w w' hn hd hw hr
        exact ⟨jv, s, .foreign hd h1, h2, h3⟩
      | some d =>
        rw [methods_some hd] at hr
        obtain ⟨ir, hir, hr⟩ := Out.bind_eq_ok.1 hr
        exact decl_sound hP ih (fun n v b h => ⟨k, h⟩) (fun n r => methods_tame hP.tame k n r) hn hd (decl_plan hP.toTypeSet hn hd hir) hv hf hw hr
    · intro n w w' hn hw hr
      cases hd : Γ.decl n with
      | none =>
        rw [methods_none hd] at hr
        obtain ⟨jv, s, h1, h2, h3⟩ := hP.foreign n none w w' hn hd hw hr
        exact ⟨jv, s, .foreign hd h1, h2, h3⟩
      | some d =>
        rw [methods_some hd] at hr
        obtain ⟨ir, hir, hr⟩ := Out.bind_eq_ok.1 hr
        exact nil_sound hd (decl_plan hP.toTypeSet hn hd hir) hr

end VJ
