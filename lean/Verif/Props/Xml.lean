/-
Properties of reading and writing concept systems as xml: C102.
-/
import Verif.Model.Xml
import Verif.Props.CsvFiles

set_option linter.unusedSectionVars false

open Ctx

namespace Xml

variable {ν : Type}

/-! ### C102: the calls never return -/

/-- Declarations with text made of `bytes` raise TypeError, if there is a name. -/
theorem declare_bytes (kind : List Char) (c : Char) (l : List (List Char)) :
    declare .bytes kind c l = if l = [] then .ok [] else .error .typeError := by
  cases l with
  | nil => rfl
  | cons x l =>
    unfold declare
    rw [List.mapM_cons]
    simp only [createTextNode, py_err_bind]
    rfl

/-- `write_xml` raises TypeError for every concept system. -/
theorem C102_write_violated (ord : SetOrder (List Char)) (str : ν → List Char) (cs : List (XConcept ν)) :
    writeXml ord str cs = .error .typeError := by
  unfold writeXml document
  simp only [declare_bytes]
  by_cases h1 : allObjects ord cs = []
  · rw [if_pos h1, py_ok_bind]
    by_cases h2 : allAttributes ord cs = []
    · rw [if_pos h2, py_ok_bind, py_ok_bind]
    · rw [if_neg h2, py_err_bind, py_err_bind]
  · rw [if_neg h1, py_err_bind, py_err_bind]

/-- `read_xml` and `uread_xml` raise TypeError for every file. -/
theorem C102_read_violated (float : List Char → Option ν) (parse : List Char → Py (List Ev)) (file : List Char) :
    readXml float parse file = .error .typeError ∧ ureadXml float parse file = .error .typeError := ⟨rfl, rfl⟩

/-! ### C102: the handlers applied to the document -/

/-- Text between elements: blanks and line breaks. -/
def Blank : Ev → Prop
  | .chars data => data ≠ [] ∧ ∀ c ∈ data, pySpace c = true
  | _ => False

instance : DecidablePred Blank := fun e =>
  match e with
  | .start _ _ => .isFalse id
  | .stop _ => .isFalse id
  | .chars data => inferInstanceAs (Decidable (data ≠ [] ∧ ∀ c ∈ data, pySpace c = true))

theorem strip_blank {s : List Char} (h : ∀ c ∈ s, pySpace c = true) : pyStrip s = [] := by
  unfold pyStrip
  rw [List.dropWhile_eq_nil_iff.2 h]
  rfl

theorem step_blank (float : List Char → Option ν) (st : St ν) {e : Ev} (h : Blank e) : step float st e = .ok st := by
  cases e with
  | start _ _ => exact h.elim
  | stop _ => exact h.elim
  | chars data =>
    obtain ⟨h1, h2⟩ := h
    cases data with
    | nil => exact absurd rfl h1
    | cons c l =>
      simp only [step, charData, strip_blank h2, List.append_nil]
      split <;> rfl

theorem handle_nil (float : List Char → Option ν) (st : St ν) : handle float st [] = .ok st := rfl

theorem handle_cons (float : List Char → Option ν) (st : St ν) (e : Ev) (evs : List Ev) :
    handle float st (e :: evs) = (do let st ← step float st e; handle float st evs) := rfl

theorem handle_append (float : List Char → Option ν) (st : St ν) (l₁ l₂ : List Ev) :
    handle float st (l₁ ++ l₂) = (do let st ← handle float st l₁; handle float st l₂) := by
  unfold handle
  rw [List.foldlM_append]

theorem handle_filter (float : List Char → Option ν) (st : St ν) (evs : List Ev) :
    handle float st evs = handle float st (evs.filter fun e => ¬ Blank e) := by
  induction evs generalizing st with
  | nil => rfl
  | cons e evs ih =>
    by_cases h : Blank e
    · rw [List.filter_cons_of_neg (by simpa using h), handle_cons, step_blank float st h, py_ok_bind, ih]
    · rw [List.filter_cons_of_pos (by simpa using h), handle_cons, handle_cons]
      cases step float st e with
      | ok st' => simp only [py_ok_bind]; exact ih st'
      | error x => rfl

/-- A declaration of an object. -/
theorem decl_object (float : List Char → Option ν) (st : St ν) (c : Char) (i x : List Char) (hx : pyStrip x = x)  :
    handle float st ([.start "object".toList [("id".toList, c :: i)]] ++ (if x = [] then [] else [.chars x]) ++
      [.stop "object".toList]) =
    .ok { st with dObjects := assign st.dObjects (c :: i) x, newObj := none, buffer := [] } := by
  cases x with
  | nil => rfl
  | cons d x =>
    have hd : d ≠ '\n' := by
      rintro rfl
      have h1 : pyStrip ('\n' :: x) = pyStrip x := by
        unfold pyStrip
        rw [List.dropWhile_cons_of_pos (by decide)]
      have h2 : (pyStrip x).length ≤ x.length := by
        unfold pyStrip
        rw [List.length_reverse]
        exact ((List.dropWhile_sublist _).length_le).trans (by
          rw [List.length_reverse]; exact (List.dropWhile_sublist _).length_le)
      rw [← h1, hx] at h2
      simp at h2
    rw [if_neg (by simp)]
    show (do
      let st₁ ← charData { st with buffer := [], newObj := some (c :: i) } (d :: x)
      let st₂ ← endElement st₁ "object".toList
      (.ok st₂ : Py (St ν))) = _
    simp only [charData, if_neg hd, py_ok_bind, hx, List.nil_append]
    rfl

/-- A declaration of an attribute. -/
theorem decl_attribute (float : List Char → Option ν) (st : St ν) (c : Char) (i x : List Char) (hx : pyStrip x = x) :
    handle float st ([.start "attribute".toList [("id".toList, c :: i)]] ++ (if x = [] then [] else [.chars x]) ++
      [.stop "attribute".toList]) =
    .ok { st with dAttributes := assign st.dAttributes (c :: i) x, newAttr := none, buffer := [] } := by
  cases x with
  | nil => rfl
  | cons d x =>
    have hd : d ≠ '\n' := by
      rintro rfl
      have h1 : pyStrip ('\n' :: x) = pyStrip x := by
        unfold pyStrip
        rw [List.dropWhile_cons_of_pos (by decide)]
      have h2 : (pyStrip x).length ≤ x.length := by
        unfold pyStrip
        rw [List.length_reverse]
        exact ((List.dropWhile_sublist _).length_le).trans (by
          rw [List.length_reverse]; exact (List.dropWhile_sublist _).length_le)
      rw [← h1, hx] at h2
      simp at h2
    rw [if_neg (by simp)]
    show (do
      let st₁ ← charData { st with buffer := [], newAttr := some (c :: i) } (d :: x)
      let st₂ ← endElement st₁ "attribute".toList
      (.ok st₂ : Py (St ν))) = _
    simp only [charData, if_neg hd, py_ok_bind, hx, List.nil_append]
    rfl

/-- The events of the declarations. -/
def declEvs (kind : List Char) (c : Char) (L l : List (List Char)) : List Ev :=
  l.flatMap fun x => [.start kind [("id".toList, idOf c L x)]] ++ (if x = [] then [] else [.chars x]) ++ [.stop kind]

theorem declare_str (kind : List Char) (c : Char) (l : List (List Char)) :
    declare .str kind c l = .ok (declEvs kind c l l) := by
  unfold declare
  have h : l.mapM (fun x => do
      let t ← createTextNode (Data.str x)
      (.ok ([Ev.start kind [("id".toList, idOf c l x)]] ++ (if t = [] then [] else [Ev.chars t]) ++ [Ev.stop kind]) :
        Py (List Ev))) =
      .ok (l.map fun x => [Ev.start kind [("id".toList, idOf c l x)]] ++ (if x = [] then [] else [Ev.chars x]) ++
        [Ev.stop kind]) := mapM_ok fun x _ => rfl
  rw [h, py_ok_bind]
  rw [declEvs, List.flatMap_def]

/-- The dict after the declarations. -/
def declared (c : Char) (L l : List (List Char)) (d : List Char → Option (List Char)) : List Char → Option (List Char) :=
  l.foldl (fun d x => assign d (idOf c L x) x) d

theorem idOf_inj {c : Char} {L : List (List Char)} {x y : List Char} (hx : x ∈ L) (h : idOf c L x = idOf c L y) : x = y := by
  have h1 := Csv.natStr_inj (List.cons.inj h).2
  exact (List.idxOf_inj hx).1 (by omega)

theorem declared_other {c : Char} {L l : List (List Char)} {d : List Char → Option (List Char)} {x : List Char}
    (hx : x ∈ L) (h : x ∉ l) : declared c L l d (idOf c L x) = d (idOf c L x) := by
  induction l generalizing d with
  | nil => rfl
  | cons y l ih =>
    show declared c L l _ _ = _
    rw [ih fun e => h (by simp [e])]
    refine if_neg fun e => h ?_
    rw [idOf_inj hx e]; simp

theorem declared_get {c : Char} {L l : List (List Char)} {d : List Char → Option (List Char)} {x : List Char}
    (hL : x ∈ L) (hx : x ∈ l) (hn : l.Nodup) : declared c L l d (idOf c L x) = some x := by
  induction l generalizing d with
  | nil => simp at hx
  | cons y l ih =>
    show declared c L l _ _ = _
    rcases List.mem_cons.1 hx with rfl | hx
    · rw [declared_other hL (List.nodup_cons.1 hn).1]
      exact if_pos rfl
    · exact ih hx (List.nodup_cons.1 hn).2

theorem handle_declObjects (float : List Char → Option ν) (c : Char) (L l : List (List Char)) (st : St ν)
    (h : ∀ x ∈ l, pyStrip x = x) (hn : st.newObj = none) :
    ∃ b, handle float st (declEvs "object".toList c L l) =
      .ok { st with dObjects := declared c L l st.dObjects, buffer := b } := by
  induction l generalizing st with
  | nil => exact ⟨st.buffer, rfl⟩
  | cons x l ih =>
    obtain ⟨b, hb⟩ := ih { st with dObjects := assign st.dObjects (idOf c L x) x, newObj := none, buffer := [] }
      (fun y hy => h y (by simp [hy])) rfl
    refine ⟨b, ?_⟩
    rw [declEvs, List.flatMap_cons, handle_append]
    unfold idOf at hb ⊢
    rw [decl_object float st c _ x (h x (by simp)), py_ok_bind]
    refine Eq.trans hb ?_
    rw [← hn]
    rfl

theorem handle_declAttributes (float : List Char → Option ν) (c : Char) (L l : List (List Char)) (st : St ν)
    (h : ∀ x ∈ l, pyStrip x = x) (hn : st.newAttr = none) :
    ∃ b, handle float st (declEvs "attribute".toList c L l) =
      .ok { st with dAttributes := declared c L l st.dAttributes, buffer := b } := by
  induction l generalizing st with
  | nil => exact ⟨st.buffer, rfl⟩
  | cons x l ih =>
    obtain ⟨b, hb⟩ := ih { st with dAttributes := assign st.dAttributes (idOf c L x) x, newAttr := none, buffer := [] }
      (fun y hy => h y (by simp [hy])) rfl
    refine ⟨b, ?_⟩
    rw [declEvs, List.flatMap_cons, handle_append]
    unfold idOf at hb ⊢
    rw [decl_attribute float st c _ x (h x (by simp)), py_ok_bind]
    refine Eq.trans hb ?_
    rw [← hn]
    rfl

theorem end_object {st : St ν} (h : st.newObj = none) : endElement st "object".toList = .ok st := by
  unfold endElement
  rw [if_pos rfl, h]

theorem end_attribute {st : St ν} (h : st.newAttr = none) : endElement st "attribute".toList = .ok st := by
  unfold endElement
  rw [if_neg (by decide), if_pos rfl, h]

theorem handle_refObjects (float : List Char → Option ν) (c : Char) (L xs : List (List Char)) (st : St ν)
    (e : List (List Char)) (he : st.newExtent = some e) (hn : st.newObj = none)
    (hd : ∀ x ∈ xs, st.dObjects (idOf c L x) = some x) :
    handle float st (refs "object".toList c L xs) = .ok { st with newExtent := some (e ++ xs) } := by
  induction xs generalizing st e with
  | nil =>
    rw [List.append_nil, ← he]
    rfl
  | cons x xs ih =>
    have h1 : handle float st [.start "object".toList [("ref".toList, idOf c L x)], .stop "object".toList] =
        .ok { st with newExtent := some (e ++ [x]) } := by
      show (do
        let st₁ ← (do
          let l ← global st.newExtent
          let y ← lookup st.dObjects (idOf c L x)
          (.ok { st with newExtent := some (l ++ [y]) } : Py (St ν)))
        let st₂ ← endElement st₁ "object".toList
        (.ok st₂ : Py (St ν))) = _
      have hg : global st.newExtent = .ok e := by rw [he]; rfl
      have hl : lookup st.dObjects (idOf c L x) = .ok x := by unfold lookup; rw [hd x (by simp)]
      rw [hg, py_ok_bind, hl, py_ok_bind, py_ok_bind, end_object (by exact hn), py_ok_bind]
    rw [refs, List.flatMap_cons, handle_append, h1, py_ok_bind]
    have h2 := ih { st with newExtent := some (e ++ [x]) } (e ++ [x]) rfl hn fun y hy => hd y (by simp [hy])
    refine Eq.trans h2 ?_
    simp

theorem handle_refAttributes (float : List Char → Option ν) (c : Char) (L xs : List (List Char)) (st : St ν)
    (e : List (List Char)) (he : st.newIntent = some e) (hn : st.newAttr = none)
    (hd : ∀ x ∈ xs, st.dAttributes (idOf c L x) = some x) :
    handle float st (refs "attribute".toList c L xs) = .ok { st with newIntent := some (e ++ xs) } := by
  induction xs generalizing st e with
  | nil =>
    rw [List.append_nil, ← he]
    rfl
  | cons x xs ih =>
    have h1 : handle float st [.start "attribute".toList [("ref".toList, idOf c L x)], .stop "attribute".toList] =
        .ok { st with newIntent := some (e ++ [x]) } := by
      show (do
        let st₁ ← (do
          let l ← global st.newIntent
          let y ← lookup st.dAttributes (idOf c L x)
          (.ok { st with newIntent := some (l ++ [y]) } : Py (St ν)))
        let st₂ ← endElement st₁ "attribute".toList
        (.ok st₂ : Py (St ν))) = _
      have hg : global st.newIntent = .ok e := by rw [he]; rfl
      have hl : lookup st.dAttributes (idOf c L x) = .ok x := by unfold lookup; rw [hd x (by simp)]
      rw [hg, py_ok_bind, hl, py_ok_bind, py_ok_bind, end_attribute (by exact hn), py_ok_bind]
    rw [refs, List.flatMap_cons, handle_append, h1, py_ok_bind]
    have h2 := ih { st with newIntent := some (e ++ [x]) } (e ++ [x]) rfl hn fun y hy => hd y (by simp [hy])
    refine Eq.trans h2 ?_
    simp

theorem replace1_back {s : List Char} (h : '_' ∉ s) : replace1 '_' ' ' (replace1 ' ' '_' s) = s := by
  unfold replace1
  rw [List.map_map]
  conv_rhs => rw [← List.map_id s]
  refine List.map_congr_left fun c hc => ?_
  have h1 : c ≠ '_' := fun e => h (e ▸ hc)
  by_cases h2 : c = ' '
  · subst h2; decide
  · simp [h1, h2]

theorem addMeta_back (float : List Char → Option ν) (str : ν → List Char) (hs : ∀ x, float (str x) = some x)
    (l m : List (List Char × ν)) (hk : ∀ p ∈ l, '_' ∉ p.1) (hn : ((m ++ l).map Prod.fst).Nodup) :
    addMeta float (some m) (l.map fun p => (replace1 ' ' '_' p.1, str p.2)) = .ok (some (m ++ l)) := by
  induction l generalizing m with
  | nil => simp [addMeta]
  | cons p l ih =>
    have hd : dictSet m p.1 p.2 = m ++ [p] := by
      unfold dictSet
      rw [if_neg]
      simp only [List.any_eq_true, decide_eq_true_eq, not_exists, not_and]
      intro q hq e
      rw [List.map_append, List.nodup_append] at hn
      exact hn.2.2 q.1 (List.mem_map.2 ⟨q, hq, rfl⟩) p.1 (by simp) e
    simp only [List.map_cons, addMeta, hs, global, py_ok_bind, replace1_back (hk p (by simp)), hd]
    rw [ih (m ++ [p]) (fun q hq => hk q (by simp [hq])) (by simpa using hn)]
    simp

/-- One concept. -/
theorem handle_concept (float : List Char → Option ν) (ord : SetOrder (List Char)) (str : ν → List Char)
    (hs : ∀ x, float (str x) = some x) (objs atts : List (List Char)) (x : XConcept ν) (st : St ν)
    (ho : st.newObj = none) (ha : st.newAttr = none)
    (hdo : ∀ y ∈ x.concept.extent, st.dObjects (idOf 'o' objs y) = some y)
    (hda : ∀ y ∈ x.concept.intent, st.dAttributes (idOf 'a' atts y) = some y)
    (hk : ∀ p ∈ x.info, '_' ∉ p.1) (hn : (x.info.map Prod.fst).Nodup) :
    handle float st (conceptEvs ord str objs atts x) =
      .ok { st with newExtent := some [], newIntent := some [], newMeta := some [], cs := st.cs ++ [x] } := by
  unfold conceptEvs
  rw [List.append_assoc, List.append_assoc, List.append_assoc, handle_append]
  have h1 : handle float st [.start "concept".toList [], .start "extent".toList []] =
      .ok { st with newExtent := some [], newIntent := some [], newMeta := some [] } := rfl
  rw [h1, py_ok_bind, handle_append,
    handle_refObjects float 'o' objs _ { st with newExtent := some [], newIntent := some [], newMeta := some [] } [] rfl ho fun y hy => hdo y ((ord.mem _ _).1 hy), py_ok_bind, handle_append]
  have h2 : ∀ st' : St ν, handle float st' [.stop "extent".toList, .start "intent".toList []] = .ok st' := fun _ => rfl
  rw [h2, py_ok_bind, handle_append,
    handle_refAttributes float 'a' atts _ { st with newExtent := some ([] ++ ord.enum x.concept.extent), newIntent := some [], newMeta := some [] } [] rfl ha fun y hy => hda y ((ord.mem _ _).1 hy), py_ok_bind]
  have h3 := addMeta_back float str hs x.info [] hk hn
  simp only [List.nil_append] at h3 ⊢
  show (do
    let st₁ ← (do
      let m ← addMeta float (some []) (x.info.map fun p : List Char × ν => (replace1 ' ' '_' p.1, str p.2))
      (.ok { st with newExtent := some (ord.enum x.concept.extent), newIntent := some (ord.enum x.concept.intent), newMeta := m } : Py (St ν)))
    let st₂ ← (.ok st₁ : Py (St ν))
    let st₃ ← endElement st₂ "concept".toList
    (.ok st₃ : Py (St ν))) = _
  rw [h3]
  simp only [py_ok_bind]
  show (.ok _ : Py (St ν)) = _
  simp only [ord.toFinset]

theorem handle_concepts (float : List Char → Option ν) (ord : SetOrder (List Char)) (str : ν → List Char)
    (hs : ∀ x, float (str x) = some x) (objs atts : List (List Char)) (l : List (XConcept ν)) (st : St ν)
    (ho : st.newObj = none) (ha : st.newAttr = none)
    (hdo : ∀ x ∈ l, ∀ y ∈ x.concept.extent, st.dObjects (idOf 'o' objs y) = some y)
    (hda : ∀ x ∈ l, ∀ y ∈ x.concept.intent, st.dAttributes (idOf 'a' atts y) = some y)
    (hk : ∀ x ∈ l, (∀ p ∈ x.info, '_' ∉ p.1) ∧ (x.info.map Prod.fst).Nodup) :
    ∃ st', handle float st (l.flatMap (conceptEvs ord str objs atts)) = .ok st' ∧ st'.cs = st.cs ++ l := by
  induction l generalizing st with
  | nil => exact ⟨st, rfl, by simp⟩
  | cons x l ih =>
    rw [List.flatMap_cons, handle_append, handle_concept float ord str hs objs atts x st ho ha (hdo x (by simp))
      (hda x (by simp)) (hk x (by simp)).1 (hk x (by simp)).2, py_ok_bind]
    obtain ⟨st', h1, h2⟩ := ih { st with newExtent := some [], newIntent := some [], newMeta := some [], cs := st.cs ++ [x] }
      ho ha (fun z hz => hdo z (by simp [hz])) (fun z hz => hda z (by simp [hz])) (fun z hz => hk z (by simp [hz]))
    exact ⟨st', h1, by rw [h2]; simp⟩

theorem mem_unions {γ : Type} (f : γ → Finset (List Char)) (l : List γ) (s : Finset (List Char)) (x : List Char) :
    x ∈ l.foldl (fun s c => s ∪ f c) s ↔ x ∈ s ∨ ∃ c ∈ l, x ∈ f c := by
  induction l generalizing s with
  | nil => simp
  | cons c l ih =>
    simp only [List.foldl_cons, ih, Finset.mem_union, List.mem_cons]
    grind

/-- Concept systems that survive: names without white space around them, keys of `meta` without `_`. -/
structure XOk (cs : List (XConcept ν)) : Prop where
  obj : ∀ x ∈ cs, ∀ o ∈ x.concept.extent, pyStrip o = o
  att : ∀ x ∈ cs, ∀ a ∈ x.concept.intent, pyStrip a = a
  key : ∀ x ∈ cs, (∀ p ∈ x.info, '_' ∉ p.1) ∧ (x.info.map Prod.fst).Nodup

/-- If the document of `write_xml` were written (with strings as text) and parsed, and the parser reported every name
in one piece, the handlers of `read_xml` would rebuild the concept system, whatever blanks are between the elements and
whatever earlier calls have left in the global variables. -/
theorem C102_handlers_partial (float : List Char → Option ν) (str : ν → List Char) (hs : ∀ x, float (str x) = some x)
    (ord : SetOrder (List Char)) (cs : List (XConcept ν)) (h : XOk cs) :
    ∃ doc, document .str ord str cs = .ok doc ∧
      ∀ evs : List Ev, (evs.filter fun e => ¬ Blank e) = doc → ∀ (e i : Option (List (List Char))) m,
        ∃ st, handle float { init with newExtent := e, newIntent := i, newMeta := m } evs = .ok st ∧ st.cs = cs := by
  unfold document
  simp only [declare_str, py_ok_bind]
  refine ⟨_, rfl, fun evs he e i m => ?_⟩
  rw [handle_filter, he]
  have hobj : ∀ o, o ∈ allObjects ord cs ↔ ∃ x ∈ cs, o ∈ x.concept.extent := by
    intro o
    unfold allObjects
    rw [ord.mem, mem_unions (fun c : XConcept ν => c.concept.extent)]
    simp
  have hatt : ∀ o, o ∈ allAttributes ord cs ↔ ∃ x ∈ cs, o ∈ x.concept.intent := by
    intro o
    unfold allAttributes
    rw [ord.mem, mem_unions (fun c : XConcept ν => c.concept.intent)]
    simp
  simp only [List.append_assoc]
  have skip : ∀ (st : St ν) (a b : List Char) (l : List Ev), (a = "objects".toList ∨ a = "attributes".toList ∨ a = "conceptsystem".toList) →
      (b = "objects".toList ∨ b = "attributes".toList ∨ b = "concepts".toList) →
      handle float st ([.stop a, .start b []] ++ l) = handle float st l ∧
      handle float st ([.start a [], .start b []] ++ l) = handle float st l := by
    rintro st a b l (rfl | rfl | rfl) (rfl | rfl | rfl) <;> exact ⟨rfl, rfl⟩
  rw [(skip _ _ _ _ (.inr (.inr rfl)) (.inl rfl)).2, handle_append]
  obtain ⟨b₁, h1⟩ := handle_declObjects float 'o' (allObjects ord cs) (allObjects ord cs)
    { (init : St ν) with newExtent := e, newIntent := i, newMeta := m } (by
      intro o ho
      obtain ⟨x, hx, ho⟩ := (hobj o).1 ho
      exact h.obj x hx o ho) rfl
  rw [h1, py_ok_bind, (skip _ _ _ _ (.inl rfl) (.inr (.inl rfl))).1, handle_append]
  obtain ⟨b₂, h2⟩ := handle_declAttributes float 'a' (allAttributes ord cs) (allAttributes ord cs)
    { (init : St ν) with newExtent := e, newIntent := i, newMeta := m, buffer := b₁, dObjects := declared 'o' (allObjects ord cs) (allObjects ord cs) (init : St ν).dObjects } (by
      intro o ho
      obtain ⟨x, hx, ho⟩ := (hatt o).1 ho
      exact h.att x hx o ho) rfl
  have h2' := h2
  rw [h2', py_ok_bind, (skip _ _ _ _ (.inr (.inl rfl)) (.inr (.inr rfl))).1, handle_append]
  obtain ⟨st, h3, h4⟩ := handle_concepts float ord str hs (allObjects ord cs) (allAttributes ord cs) cs
    { (init : St ν) with newExtent := e, newIntent := i, newMeta := m, buffer := b₂, dObjects := declared 'o' (allObjects ord cs) (allObjects ord cs) (init : St ν).dObjects, dAttributes := declared 'a' (allAttributes ord cs) (allAttributes ord cs) (init : St ν).dAttributes } rfl rfl
    (fun x hx y hy => declared_get ((hobj y).2 ⟨x, hx, hy⟩) ((hobj y).2 ⟨x, hx, hy⟩) (ord.nodup _))
    (fun x hx y hy => declared_get ((hatt y).2 ⟨x, hx, hy⟩) ((hatt y).2 ⟨x, hx, hy⟩) (ord.nodup _))
    h.key
  rw [h3, py_ok_bind]
  exact ⟨st, rfl, by rw [h4]; rfl⟩

/-- The parser reports a text with an entity in several pieces; each is stripped, so that blanks inside a name are lost:
a name `x y` reported as `x ` and `y` is read as `xy`. -/
theorem C102_pieces_violated (float : List Char → Option ν) (st : St ν) (i x y : List Char) (c : Char)
    (hy : pyStrip y = y) (hx0 : x ≠ []) (hx1 : x.head? ≠ some '\n') (hy0 : y ≠ [])
    (hy1 : y.head? ≠ some '\n') (hb : pyStrip (x ++ [' ']) = x) :
    ∃ st', handle float st [.start "object".toList [("id".toList, c :: i)], .chars (x ++ [' ']), .chars y,
      .stop "object".toList] = .ok st' ∧ st'.dObjects (c :: i) = some (x ++ y) ∧ x ++ y ≠ x ++ [' '] ++ y := by
  obtain ⟨a, x, rfl⟩ := List.exists_cons_of_ne_nil hx0
  obtain ⟨b, y, rfl⟩ := List.exists_cons_of_ne_nil hy0
  have ha : a ≠ '\n' := by simpa using hx1
  have hb' : b ≠ '\n' := by simpa using hy1
  refine ⟨{ st with dObjects := assign st.dObjects (c :: i) (a :: x ++ b :: y), newObj := none, buffer := [] }, ?_,
    by simp [assign], by simp⟩
  show (do
    let st₁ ← charData { st with buffer := [], newObj := some (c :: i) } (a :: x ++ [' '])
    let st₂ ← charData st₁ (b :: y)
    let st₃ ← endElement st₂ "object".toList
    (.ok st₃ : Py (St ν))) = _
  simp only [List.cons_append] at hb
  simp only [List.cons_append, charData, if_neg ha, if_neg hb', py_ok_bind, hb, hy, List.nil_append]
  rfl

/-- Two concepts. -/
def sampleXml : List (XConcept ℕ) :=
  [⟨⟨{"g".toList, "h".toList}, {"m n".toList}⟩, [("stab idx".toList, 3)]⟩, ⟨⟨{"g".toList}, {"m n".toList, "k".toList}⟩, []⟩]

example : XOk sampleXml := by
  constructor <;> decide +kernel

example : ∀ n : ℕ, (fun s => (pyInt s).toOption) (natStr n) = some n := fun n => by
  simp only [pyInt_natStr]; rfl

/-- `R & D` is reported as `R `, `&`, ` D`. -/
example : ∃ st, handle (fun _ => (none : Option ℕ)) init
    [.start "object".toList [("id".toList, "o1".toList)], .chars "R ".toList, .chars "&".toList, .chars " D".toList,
      .stop "object".toList] = .ok st ∧ st.dObjects "o1".toList = some "R&D".toList := ⟨_, rfl, by decide +kernel⟩

/-! ### Documents with mistakes -/

/-- A reference to an identifier that was not declared raises KeyError; a reference before the first concept raises
NameError, whether or not it was declared, and so does the end of a concept without a beginning. -/
theorem C102_bad_reference (float : List Char → Option ν) (st : St ν) (r : List Char) (l : List (List Char)) :
    (st.newExtent = some l → st.dObjects r = none →
      handle float st [.start "object".toList [("ref".toList, r)]] = .error .keyError) ∧
    (st.newIntent = some l → st.dAttributes r = none →
      handle float st [.start "attribute".toList [("ref".toList, r)]] = .error .keyError) ∧
    (st.newExtent = none → handle float st [.start "object".toList [("ref".toList, r)]] = .error .nameError) ∧
    (st.newIntent = none → handle float st [.start "attribute".toList [("ref".toList, r)]] = .error .nameError) ∧
    (st.newExtent = none → handle float st [.stop "concept".toList] = .error .nameError) := by
  have ho : ∀ st : St ν, handle float st [.start "object".toList [("ref".toList, r)]] = (do
      let l ← global st.newExtent
      let x ← lookup st.dObjects r
      (.ok { st with newExtent := some (l ++ [x]) } : Py (St ν))) := by
    intro st; rw [handle_cons]; simp only [handle_nil]; exact bind_pure _
  have ha : ∀ st : St ν, handle float st [.start "attribute".toList [("ref".toList, r)]] = (do
      let l ← global st.newIntent
      let x ← lookup st.dAttributes r
      (.ok { st with newIntent := some (l ++ [x]) } : Py (St ν))) := by
    intro st; rw [handle_cons]; simp only [handle_nil]; exact bind_pure _
  refine ⟨fun h1 h2 => ?_, fun h1 h2 => ?_, fun h => ?_, fun h => ?_, fun h => ?_⟩
  · rw [ho, h1]; simp only [global, lookup, h2]; rfl
  · rw [ha, h1]; simp only [global, lookup, h2]; rfl
  · rw [ho, h]; rfl
  · rw [ha, h]; rfl
  · have hc : handle float st [.stop "concept".toList] = endElement st "concept".toList := bind_pure _
    have he : endElement st "concept".toList = (do
      let e ← global st.newExtent
      let i ← global st.newIntent
      let m ← global st.newMeta
      (.ok { st with cs := st.cs ++ [⟨⟨e.toFinset, i.toFinset⟩, m⟩], newExtent := some [], newIntent := some [],
                     newMeta := some [] } : Py (St ν))) := rfl
    rw [hc, he, h]; rfl

/-- Hypotheses of `C102_bad_reference`: the state of a first call, and the one after the beginning of a concept. -/
example : (init : St ℕ).newExtent = none ∧ (init : St ℕ).dObjects "o1".toList = none ∧
    ∃ st, handle (fun _ => (none : Option ℕ)) init [.start "concept".toList []] = .ok st ∧ st.newExtent = some [] :=
  ⟨rfl, rfl, _, rfl, rfl⟩

/-- An element `meta` with a value that is no number raises ValueError, and only then, inside a concept; before the first
concept its first value decides between ValueError and NameError. -/
theorem C102_bad_meta (float : List Char → Option ν) (st : St ν) (attrs : List (List Char × List Char)) :
    (∀ d, st.newMeta = some d →
      ((∃ p ∈ attrs, float p.2 = none) → handle float st [.start "meta".toList attrs] = .error .valueError) ∧
      ((∀ p ∈ attrs, float p.2 ≠ none) →
        ∃ d', handle float st [.start "meta".toList attrs] = .ok { st with newMeta := some d' })) ∧
    (st.newMeta = none → handle float st [.start "meta".toList attrs] =
      match attrs with
      | [] => .ok st
      | p :: _ => .error (if float p.2 = none then .valueError else .nameError)) := by
  have hs : ∀ st : St ν, handle float st [.start "meta".toList attrs] = (do
      let m ← addMeta float st.newMeta attrs
      (.ok { st with newMeta := m } : Py (St ν))) := by
    intro st; rw [handle_cons]; simp only [handle_nil]; exact bind_pure _
  constructor
  · intro d hd
    rw [hs, hd]
    have key : ∀ (l : List (List Char × List Char)) (d : List (List Char × ν)),
        ((∃ p ∈ l, float p.2 = none) → addMeta float (some d) l = .error .valueError) ∧
        ((∀ p ∈ l, float p.2 ≠ none) → ∃ d', addMeta float (some d) l = .ok (some d')) := by
      intro l
      induction l with
      | nil => intro d; exact ⟨by simp, fun _ => ⟨d, rfl⟩⟩
      | cons p l ih =>
        obtain ⟨k, s⟩ := p
        intro d
        cases hf : float s with
        | none =>
          refine ⟨fun _ => ?_, fun h => absurd hf (h (k, s) (by simp))⟩
          simp only [addMeta, hf]
        | some x =>
          have he : addMeta float (some d) ((k, s) :: l) = addMeta float (some (dictSet d (replace1 '_' ' ' k) x)) l := by
            simp only [addMeta, hf]; rfl
          rw [he]
          obtain ⟨i1, i2⟩ := ih (dictSet d (replace1 '_' ' ' k) x)
          refine ⟨?_, fun h => i2 fun p hp => h p (by simp [hp])⟩
          rintro ⟨p, hp, h⟩
          rcases List.mem_cons.1 hp with rfl | hp
          · rw [hf] at h; cases h
          · exact i1 ⟨p, hp, h⟩
    refine ⟨fun h => ?_, fun h => ?_⟩
    · rw [(key attrs d).1 h]; rfl
    · obtain ⟨d', h'⟩ := (key attrs d).2 h
      rw [h']; exact ⟨d', rfl⟩
  · intro hn
    rw [hs, hn]
    cases attrs with
    | nil => cases st; cases hn; rfl
    | cons p l =>
      obtain ⟨k, s⟩ := p
      cases hf : float s with
      | none => simp only [addMeta, hf, if_true]; rfl
      | some x => simp only [addMeta, hf]; rfl

/-- Both kinds of values, inside a concept. -/
example : ∃ st, handle (fun s => if s = "1".toList then some 1 else none) (init : St ℕ) [.start "concept".toList []] = .ok st ∧
    st.newMeta = some [] ∧
    handle (fun s => if s = "1".toList then some 1 else none) st
      [.start "meta".toList [("a".toList, "1".toList), ("b".toList, "x".toList)]] = .error .valueError :=
  ⟨_, rfl, rfl, ((C102_bad_meta _ _ _).1 [] rfl).1 ⟨("b".toList, "x".toList), by simp, by decide⟩⟩

/-! ### ids -/

/-- The values of `id` in the elements with the given name, in their order. -/
def declaredIds (kind : List Char) (evs : List Ev) : List (List Char) :=
  evs.filterMap fun
    | .start k [(a, i)] => if k = kind ∧ a = "id".toList then some i else none
    | _ => none

theorem declaredIds_start {kind k : List Char} (h : k ≠ kind) (m : List (List Char × List Char)) (l : List Ev) :
    declaredIds kind (.start k m :: l) = declaredIds kind l := by
  unfold declaredIds
  refine List.filterMap_cons_none ?_
  rcases m with _ | ⟨⟨a, i⟩, _ | ⟨b, m⟩⟩
  · rfl
  · exact if_neg fun hh => h hh.1
  · rfl

theorem declaredIds_stop (kind k : List Char) (l : List Ev) : declaredIds kind (.stop k :: l) = declaredIds kind l :=
  List.filterMap_cons_none rfl

theorem declaredIds_append (kind : List Char) (l l' : List Ev) :
    declaredIds kind (l ++ l') = declaredIds kind l ++ declaredIds kind l' := List.filterMap_append

theorem declaredIds_flatMap {γ : Type} (kind : List Char) (l : List γ) (f : γ → List Ev) :
    declaredIds kind (l.flatMap f) = l.flatMap fun x => declaredIds kind (f x) := by
  induction l with
  | nil => rfl
  | cons x l ih => rw [List.flatMap_cons, declaredIds_append, ih, List.flatMap_cons]

theorem declaredIds_declared (kind : List Char) (c : Char) (L l : List (List Char)) :
    declaredIds kind (declEvs kind c L l) = l.map (idOf c L) := by
  rw [declEvs, declaredIds_flatMap]
  induction l with
  | nil => rfl
  | cons x l ih =>
    rw [List.flatMap_cons, ih, List.map_cons]
    by_cases hx : x = [] <;> simp [declaredIds, hx]

theorem declaredIds_other {kind kind' : List Char} (h : kind' ≠ kind) (c : Char) (L l : List (List Char)) :
    declaredIds kind (declEvs kind' c L l) = [] := by
  rw [declEvs, declaredIds_flatMap]
  induction l with
  | nil => rfl
  | cons x l ih =>
    rw [List.flatMap_cons, ih]
    by_cases hx : x = [] <;> simp [declaredIds, hx, h]

theorem declaredIds_refs (kind kind' : List Char) (c : Char) (L l : List (List Char)) :
    declaredIds kind (refs kind' c L l) = [] := by
  unfold refs
  rw [declaredIds_flatMap, List.flatMap_eq_nil_iff]
  intro x _
  simp [declaredIds]

theorem map_idOf {c : Char} {L : List (List Char)} (h : L.Nodup) :
    L.map (idOf c L) = (List.range L.length).map fun k => c :: natStr (k + 1) := by
  apply List.ext_getElem
  · simp
  · intro k h1 h2
    simp only [List.getElem_map, List.getElem_range, idOf]
    rw [h.idxOf_getElem]

theorem declaredIds_concepts {kind : List Char} (hk : kind = "object".toList ∨ kind = "attribute".toList)
    (ord : SetOrder (List Char)) (str : ν → List Char) (objs atts : List (List Char)) (cs : List (XConcept ν)) :
    declaredIds kind (cs.flatMap (conceptEvs ord str objs atts)) = [] := by
  rw [declaredIds_flatMap, List.flatMap_eq_nil_iff]
  intro x _
  unfold conceptEvs
  simp only [declaredIds_append, declaredIds_refs, List.append_nil]
  have h1 : "concept".toList ≠ kind ∧ "extent".toList ≠ kind ∧ "intent".toList ≠ kind ∧ "meta".toList ≠ kind := by
    rcases hk with rfl | rfl <;> decide
  rw [declaredIds_start h1.1, declaredIds_start h1.2.1, declaredIds_stop, declaredIds_start h1.2.2.1, declaredIds_stop,
    declaredIds_start h1.2.2.2, declaredIds_stop, declaredIds_stop]
  rfl

/-- The document declares the objects with the ids `o1`, `o2`, … and the attributes with `a1`, `a2`, …, in the order of
the lists of all objects and attributes, and no other ids. -/
theorem C102_document_ids (ord : SetOrder (List Char)) (str : ν → List Char) (cs : List (XConcept ν)) :
    ∃ doc, document .str ord str cs = .ok doc ∧
      declaredIds "object".toList doc = (List.range (allObjects ord cs).length).map (fun k => 'o' :: natStr (k + 1)) ∧
      declaredIds "attribute".toList doc =
        (List.range (allAttributes ord cs).length).map fun k => 'a' :: natStr (k + 1) := by
  unfold document
  simp only [declare_str, py_ok_bind]
  have h1 : ∀ kind, kind = "object".toList ∨ kind = "attribute".toList → "conceptsystem".toList ≠ kind ∧
      "objects".toList ≠ kind ∧ "attributes".toList ≠ kind ∧ "concepts".toList ≠ kind := by
    rintro _ (rfl | rfl) <;> decide
  have h2 : ∀ kind, kind = "object".toList ∨ kind = "attribute".toList →
      declaredIds kind [.start "conceptsystem".toList [], .start "objects".toList []] = [] ∧
      declaredIds kind [.stop "objects".toList, .start "attributes".toList []] = [] ∧
      declaredIds kind [.stop "attributes".toList, .start "concepts".toList []] = [] ∧
      declaredIds kind [.stop "concepts".toList, .stop "conceptsystem".toList] = [] := by
    intro kind hk
    obtain ⟨a, b, c, d⟩ := h1 kind hk
    rw [declaredIds_start a, declaredIds_start b, declaredIds_stop, declaredIds_start c, declaredIds_stop,
      declaredIds_start d, declaredIds_stop, declaredIds_stop]
    exact ⟨rfl, rfl, rfl, rfl⟩
  refine ⟨_, rfl, ?_, ?_⟩
  · obtain ⟨a, b, c, d⟩ := h2 _ (.inl rfl)
    simp only [declaredIds_append, declaredIds_concepts (.inl rfl), declaredIds_declared,
      declaredIds_other (show "attribute".toList ≠ "object".toList by decide), a, b, c, d, List.nil_append, List.append_nil]
    exact map_idOf (ord.nodup _)
  · obtain ⟨a, b, c, d⟩ := h2 _ (.inr rfl)
    simp only [declaredIds_append, declaredIds_concepts (.inr rfl), declaredIds_declared,
      declaredIds_other (show "object".toList ≠ "attribute".toList by decide), a, b, c, d, List.nil_append, List.append_nil]
    exact map_idOf (ord.nodup _)

example (ord : SetOrder (List Char)) : ∃ doc, document .str ord (fun _ : Unit => [])
      [⟨⟨{"g".toList}, {"m".toList}⟩, []⟩] = .ok doc ∧ declaredIds "object".toList doc = ["o1".toList] := by
  obtain ⟨doc, h1, h2, -⟩ := C102_document_ids ord (fun _ : Unit => []) [⟨⟨{"g".toList}, {"m".toList}⟩, []⟩]
  refine ⟨doc, h1, ?_⟩
  have h3 : (allObjects (ν := Unit) ord [⟨⟨{"g".toList}, {"m".toList}⟩, []⟩]).length = 1 := by
    unfold allObjects
    rw [← List.toFinset_card_of_nodup (ord.nodup _)]
    have h4 : (ord.enum (([⟨⟨{"g".toList}, {"m".toList}⟩, []⟩] : List (XConcept Unit)).foldl
        (fun s c => s ∪ c.concept.extent) ∅)).toFinset = {"g".toList} := by
      ext x
      rw [List.mem_toFinset, ord.mem]
      simp
    rw [h4]
    rfl
  rw [h2, h3]
  decide +kernel

end Xml
