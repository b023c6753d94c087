import Verif.Proof.Codecs
import Verif.Spec.Encode

/-!
# Building JSON texts
-/

namespace VJ

/-- texts, each after a comma -/
def commaed : List Str → Str
  | [] => []
  | t :: ts => ',' :: (t ++ commaed ts)

theorem joinComma_cons (t : Str) : ∀ (ts : List Str), joinComma (t :: ts) = t ++ commaed ts
  | [] => by simp [joinComma, commaed]
  | u :: ts => by rw [joinComma, joinComma_cons u ts, commaed]

theorem commaed_append : ∀ (as bs : List Str), commaed (as ++ bs) = commaed as ++ commaed bs
  | [], _ => rfl
  | a :: as, bs => by simp [commaed, commaed_append as bs]

theorem joinComma_append {as bs : List Str} (ha : as ≠ []) (hb : bs ≠ []) :
    joinComma (as ++ bs) = joinComma as ++ ',' :: joinComma bs := by
  obtain ⟨a, as, rfl⟩ := List.exists_cons_of_ne_nil ha
  obtain ⟨b, bs, rfl⟩ := List.exists_cons_of_ne_nil hb
  rw [List.cons_append, joinComma_cons, joinComma_cons, joinComma_cons, commaed_append, commaed]
  simp

theorem ws_nil : Ws [] := fun _ h => by cases h

theorem json_arr {ds : List (JV × Str)} (h : ∀ d ∈ ds, Json d.1 d.2) :
    Json (.arr (ds.map (·.1))) ('[' :: (joinComma (ds.map (·.2)) ++ [']'])) := by
  by_cases hne : ds = []
  · subst hne; exact .arr0 ws_nil
  · have ht : (ds.map fun d => ElemText.mk [] d.2 []).map ElemText.text = ds.map (·.2) := by
      rw [List.map_map]; congr 1; funext d; simp [ElemText.text]
    rw [← ht]
    refine .arr (by simpa using hne) (by simp) ?_ ?_
    · intro p hp; obtain ⟨d, -, rfl⟩ := List.mem_map.1 hp; exact ⟨ws_nil, ws_nil⟩
    · intro i v p hv hp
      rw [List.getElem?_map, Option.map_eq_some_iff] at hv hp
      obtain ⟨d, hd, rfl⟩ := hv; obtain ⟨d', hd', rfl⟩ := hp
      cases hd.symm.trans hd'
      exact h d (List.mem_of_getElem? hd)

/-- a member of an object and its text -/
abbrev Mem := (Str × JV) × MemberText

def MemOK (m : Mem) : Prop := m.2.ws ∧ StrText m.1.1 m.2.key ∧ Json m.1.2 m.2.body

theorem json_obj {ms : List Mem} (h : ∀ m ∈ ms, MemOK m) :
    Json (.obj (ms.map (·.1))) ('{' :: (joinComma (ms.map (·.2.text)) ++ ['}'])) := by
  by_cases hne : ms = []
  · subst hne; exact .obj0 ws_nil
  · have ht : (ms.map (·.2)).map MemberText.text = ms.map (·.2.text) := by rw [List.map_map]; rfl
    rw [← ht]
    refine .obj (by simpa using hne) (by simp) ?_ ?_ ?_
    · intro p hp; obtain ⟨d, hd, rfl⟩ := List.mem_map.1 hp; exact (h d hd).1
    all_goals
      intro i v p hv hp
      rw [List.getElem?_map, Option.map_eq_some_iff] at hv hp
      obtain ⟨d, hd, rfl⟩ := hv; obtain ⟨d', hd', rfl⟩ := hp
      cases hd.symm.trans hd'
    · exact (h d (List.mem_of_getElem? hd)).2.1
    · exact (h d (List.mem_of_getElem? hd)).2.2

theorem json_obj_inv {kv : Str × JV} {kvs : List (Str × JV)} {s : Str} (h : Json (.obj (kv :: kvs)) s) :
    ∃ ms : List Mem, ms.map (·.1) = kv :: kvs ∧ (∀ m ∈ ms, MemOK m) ∧ s = '{' :: (joinComma (ms.map (·.2.text)) ++ ['}']) := by
  cases h with
  | obj hne hl hw hk hj =>
    rename_i ps
    have hl1 : (kv :: kvs).length ≤ ps.length := by omega
    have hl2 : ps.length ≤ (kv :: kvs).length := by omega
    refine ⟨(kv :: kvs).zip ps, List.map_fst_zip hl1, ?_, ?_⟩
    · intro m hm
      obtain ⟨i, hi⟩ := List.mem_iff_getElem?.1 hm
      rw [List.getElem?_zip_eq_some] at hi
      exact ⟨hw _ (List.mem_of_getElem? hi.2), hk i _ _ hi.1 hi.2, hj i _ _ hi.1 hi.2⟩
    · have : ((kv :: kvs).zip ps).map (fun m => m.2.text) = ps.map MemberText.text := by
        rw [show (fun m : (Str × JV) × MemberText => m.2.text) = MemberText.text ∘ Prod.snd from rfl, ← List.map_map, List.map_snd_zip hl2]
      rw [this]

/-- a member written with `"key":value` -/
def plainMem (name : Str) (jv : JV) (body : Str) : Mem := ((name, jv), ⟨[], name, [], [], body, []⟩)

theorem plainMem_ok {name body : Str} {jv : JV} (hn : PlainText name) (h : Json jv body) : MemOK (plainMem name jv body) :=
  ⟨⟨ws_nil, ws_nil, ws_nil, ws_nil⟩, strText_plain hn, h⟩

theorem plainMem_text (name : Str) (jv : JV) (body : Str) : (plainMem name jv body).2.text = keyText name ++ body := by
  simp [plainMem, MemberText.text, keyText]

/-- a member written with an escaped key -/
def escMem (name : Str) (jv : JV) (body : Str) : Mem := ((name, jv), ⟨[], escBody name, [], [], body, []⟩)

theorem escMem_ok {name body : Str} {jv : JV} (h : Json jv body) : MemOK (escMem name jv body) :=
  ⟨⟨ws_nil, ws_nil, ws_nil, ws_nil⟩, escBody_text name, h⟩

theorem escMem_text (name : Str) (jv : JV) (body : Str) : (escMem name jv body).2.text = jsonStr name ++ ':' :: body := by
  simp [escMem, MemberText.text, jsonStr]

theorem quoted_json {s : Str} (h : PlainText s) : Json (.str s) ('"' :: (s ++ ['"'])) := .str (strText_plain h)

theorem bool_json (b : Bool) : Json (.bool b) (boolText b) := by
  cases b
  · exact .false
  · exact .true

theorem W.raw_raw (w : W) (s t : Str) : (w.raw s).raw t = w.raw (s ++ t) := by simp [W.raw]
theorem W.raw_nil (w : W) : w.raw [] = w := by simp [W.raw]
@[simp] theorem W.raw_err (w : W) (s : Str) : (w.raw s).err = w.err := rfl

end VJ
