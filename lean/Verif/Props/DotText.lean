/-
Properties of the text of the diagrams: C103.
-/
import Verif.Model.DotText
import Verif.Props.ReadWrite

set_option linter.unusedSectionVars false

open Ctx Spec

section

variable (ordo orda : SetOrder (List Char)) (ordc : SetOrder (Concept (List Char) (List Char)))

/-- The statements of the label of a node. -/
def labelStmts (head : Bool) (f : List (List Char) → List (List Char)) (i : ℕ) (own : List (List Char)) : List DotStmt :=
  if own = [] then [] else [.label head i (joinC "\\n ".toList (f own)) (f own).length]

theorem labelText_eq (dist : Bool → ℕ → List Char) (f : List (List Char) → List (List Char)) (i : ℕ)
    (own : List (List Char)) :
    dotLabelText "headlabel".toList ("labeldistance=".toList ++ dist true (f own).length ++
        ",labelangle=270,color=transparent]\n".toList) i own (f own) =
      (labelStmts true f i own).flatMap (DotStmt.render dist) ∧
    dotLabelText "taillabel".toList ("labeldistance=".toList ++ dist false (f own).length ++
        ",labelangle=90,color=transparent]\n".toList) i own (f own) =
      (labelStmts false f i own).flatMap (DotStmt.render dist) := by
  by_cases h : own = []
  · subst h
    exact ⟨rfl, rfl⟩
  · have hl : own.length ≠ 0 := fun e => h (List.length_eq_zero_iff.1 e)
    unfold dotLabelText labelStmts
    rw [if_pos hl, if_neg h, if_pos hl, if_neg h]
    constructor <;> simp [DotStmt.render, dotArrow, natStr]

theorem edgeText_eq (dist : Bool → ℕ → List Char) (es : List (ℕ × ℕ)) :
    dotEdgeText es = (es.map fun e => DotStmt.edge e.1 e.2).flatMap (DotStmt.render dist) := by
  unfold dotEdgeText
  rw [List.flatMap_map]
  rfl

/-- What the statements of a diagram have to be: a node for every concept, an edge for every pair of neighbours, a label
with the names `f` makes of the own objects and attributes; each once. -/
structure Diagram (f : List (List Char) → List (List Char)) (cs : List (Concept (List Char) (List Char)))
    (stmts : List DotStmt) : Prop where
  nodup : stmts.Nodup
  node : ∀ i, .node i ∈ stmts ↔ i < cs.length
  edge : ∀ k i, .edge k i ∈ stmts ↔
    ∃ p con, cs[k]? = some p ∧ cs[i]? = some con ∧ Covers Concept.intent cs p con
  head : ∀ i t n, .label true i t n ∈ stmts ↔ ∃ con, cs[i]? = some con ∧ ownObjects ordo cs con ≠ [] ∧
    t = joinC "\\n ".toList (f (ownObjects ordo cs con)) ∧ n = (f (ownObjects ordo cs con)).length
  tail : ∀ i t n, .label false i t n ∈ stmts ↔ ∃ con, cs[i]? = some con ∧ ownAttributes orda cs con ≠ [] ∧
    t = joinC "\\n ".toList (f (ownAttributes orda cs con)) ∧ n = (f (ownAttributes orda cs con)).length

/-- Labels of the i-th concept. -/
def nodeLabels (f : List (List Char) → List (List Char)) (cs : List (Concept (List Char) (List Char)))
    (p : Concept (List Char) (List Char) × ℕ) : List DotStmt :=
  labelStmts true f p.2 (ownObjects ordo cs p.1) ++ labelStmts false f p.2 (ownAttributes orda cs p.1)

variable {ordo orda}

theorem mem_nodeLabels {f : List (List Char) → List (List Char)} {cs : List (Concept (List Char) (List Char))}
    {con : Concept (List Char) (List Char)} {i : ℕ} {s : DotStmt} (h : s ∈ nodeLabels ordo orda f cs (con, i)) :
    ∃ b t n, s = .label b i t n := by
  unfold nodeLabels labelStmts at h
  grind

theorem mem_head {f : List (List Char) → List (List Char)} {cs : List (Concept (List Char) (List Char))}
    {con : Concept (List Char) (List Char)} {i j : ℕ} {t : List Char} {n : ℕ} :
    .label true j t n ∈ nodeLabels ordo orda f cs (con, i) ↔ j = i ∧ ownObjects ordo cs con ≠ [] ∧
      t = joinC "\\n ".toList (f (ownObjects ordo cs con)) ∧ n = (f (ownObjects ordo cs con)).length := by
  unfold nodeLabels labelStmts
  grind

theorem mem_tail {f : List (List Char) → List (List Char)} {cs : List (Concept (List Char) (List Char))}
    {con : Concept (List Char) (List Char)} {i j : ℕ} {t : List Char} {n : ℕ} :
    .label false j t n ∈ nodeLabels ordo orda f cs (con, i) ↔ j = i ∧ ownAttributes orda cs con ≠ [] ∧
      t = joinC "\\n ".toList (f (ownAttributes orda cs con)) ∧ n = (f (ownAttributes orda cs con)).length := by
  unfold nodeLabels labelStmts
  grind

theorem nodeLabels_nodup (f : List (List Char) → List (List Char)) (cs : List (Concept (List Char) (List Char)))
    (p : Concept (List Char) (List Char) × ℕ) : (nodeLabels ordo orda f cs p).Nodup := by
  unfold nodeLabels labelStmts
  split <;> split <;> simp

/-- All labels. -/
theorem labels_nodup (f : List (List Char) → List (List Char)) (cs : List (Concept (List Char) (List Char))) :
    (cs.zipIdx.flatMap (nodeLabels ordo orda f cs)).Nodup := by
  rw [List.nodup_flatMap]
  refine ⟨fun p _ => nodeLabels_nodup f cs p, ?_⟩
  rw [List.pairwise_iff_getElem]
  intro i j hi hj hij
  show List.Disjoint _ _
  rw [List.disjoint_left]
  intro s h1 h2
  rw [List.getElem_zipIdx] at h1 h2
  obtain ⟨b, t, n, rfl⟩ := mem_nodeLabels h1
  obtain ⟨b', t', n', he⟩ := mem_nodeLabels h2
  injection he with _ he
  omega

theorem mem_labels {f : List (List Char) → List (List Char)} {cs : List (Concept (List Char) (List Char))} {s : DotStmt} :
    s ∈ cs.zipIdx.flatMap (nodeLabels ordo orda f cs) ↔
      ∃ con i, cs[i]? = some con ∧ s ∈ nodeLabels ordo orda f cs (con, i) := by
  rw [List.mem_flatMap]
  constructor
  · rintro ⟨⟨con, i⟩, h1, h2⟩
    exact ⟨con, i, List.mem_zipIdx_iff_getElem?.1 h1, h2⟩
  · rintro ⟨con, i, h1, h2⟩
    exact ⟨⟨con, i⟩, List.mem_zipIdx_iff_getElem?.2 h1, h2⟩

/-- Nodes, edges and labels, in any order, form a diagram. -/
theorem diagram_of_perm {f : List (List Char) → List (List Char)} {cs : List (Concept (List Char) (List Char))}
    {es : List (ℕ × ℕ)} (hes : es.Nodup) (he : ∀ k i, (k, i) ∈ es ↔
      ∃ p con, cs[k]? = some p ∧ cs[i]? = some con ∧ Covers Concept.intent cs p con)
    {stmts : List DotStmt}
    (hp : stmts.Perm ((List.range cs.length).map .node ++ (es.map (fun e => .edge e.1 e.2) ++
      cs.zipIdx.flatMap (nodeLabels ordo orda f cs)))) : Diagram ordo orda f cs stmts := by
  refine ⟨?_, ?_, ?_, ?_, ?_⟩
  · rw [hp.nodup_iff, List.nodup_append, List.nodup_append]
    refine ⟨List.Nodup.map (fun _ _ h => by cases h; rfl) List.nodup_range,
      ⟨List.Nodup.map (fun a b h => by cases a; cases b; cases h; rfl) hes, labels_nodup f cs, ?_⟩, ?_⟩
    · intro a ha b hb e
      obtain ⟨q, -, rfl⟩ := List.mem_map.1 ha
      obtain ⟨con, i, -, h2⟩ := mem_labels.1 hb
      obtain ⟨_, _, _, h3⟩ := mem_nodeLabels h2
      rw [← e] at h3
      cases h3
    · intro a ha b hb e
      obtain ⟨q, -, rfl⟩ := List.mem_map.1 ha
      rcases List.mem_append.1 hb with hb | hb
      · obtain ⟨r, -, rfl⟩ := List.mem_map.1 hb
        cases e
      · obtain ⟨con, i, -, h2⟩ := mem_labels.1 hb
        obtain ⟨_, _, _, h3⟩ := mem_nodeLabels h2
        rw [← e] at h3
        cases h3
  all_goals
    intros
    rw [hp.mem_iff, List.mem_append, List.mem_append, mem_labels]
  · constructor
    · rintro (h | h | ⟨con, i, -, h⟩)
      · obtain ⟨j, hj, e⟩ := List.mem_map.1 h
        cases e
        exact List.mem_range.1 hj
      · obtain ⟨j, hj, e⟩ := List.mem_map.1 h
        cases e
      · obtain ⟨_, _, _, e⟩ := mem_nodeLabels h
        cases e
    · intro h
      exact .inl (List.mem_map.2 ⟨_, List.mem_range.2 h, rfl⟩)
  · rw [← he]
    constructor
    · rintro (h | h | ⟨con, i, -, h⟩)
      · obtain ⟨j, hj, e⟩ := List.mem_map.1 h
        cases e
      · obtain ⟨j, hj, e⟩ := List.mem_map.1 h
        cases e
        exact hj
      · obtain ⟨_, _, _, e⟩ := mem_nodeLabels h
        cases e
    · intro h
      exact .inr (.inl (List.mem_map.2 ⟨_, h, rfl⟩))
  · constructor
    · rintro (h | h | ⟨con, i, h0, h⟩)
      · obtain ⟨j, hj, e⟩ := List.mem_map.1 h
        cases e
      · obtain ⟨j, hj, e⟩ := List.mem_map.1 h
        cases e
      · obtain ⟨rfl, h'⟩ := mem_head.1 h
        exact ⟨con, h0, h'⟩
    · rintro ⟨con, h0, h⟩
      exact .inr (.inr ⟨con, _, h0, mem_head.2 ⟨rfl, h⟩⟩)
  · constructor
    · rintro (h | h | ⟨con, i, h0, h⟩)
      · obtain ⟨j, hj, e⟩ := List.mem_map.1 h
        cases e
      · obtain ⟨j, hj, e⟩ := List.mem_map.1 h
        cases e
      · obtain ⟨rfl, h'⟩ := mem_tail.1 h
        exact ⟨con, h0, h'⟩
    · rintro ⟨con, h0, h⟩
      exact .inr (.inr ⟨con, _, h0, mem_tail.2 ⟨rfl, h⟩⟩)

theorem mapM_range_zipIdx {γ δ : Type} {l : List γ} {F : ℕ → Py δ} {g : γ × ℕ → δ}
    (h : ∀ i x, l[i]? = some x → F i = .ok (g (x, i))) : (List.range l.length).mapM F = .ok (l.zipIdx.map g) := by
  have he : List.range l.length = l.zipIdx.map Prod.snd := by simp [List.range_eq_range']
  rw [he, List.mapM_map]
  refine mapM_ok fun p hp => ?_
  obtain ⟨x, i⟩ := p
  exact h i x (List.mem_zipIdx_iff_getElem?.1 hp)

theorem perm_interleave {γ δ : Type} (l : List γ) (a b : γ → List δ) :
    (l.flatMap fun x => a x ++ b x).Perm (l.flatMap a ++ l.flatMap b) := by
  induction l with
  | nil => exact .refl _
  | cons x l ih =>
    simp only [List.flatMap_cons, List.append_assoc]
    refine List.Perm.append_left _ ?_
    refine (ih.append_left _).trans ?_
    rw [← List.append_assoc, ← List.append_assoc]
    exact List.Perm.append_right _ List.perm_append_comm

/-- The first four lines of the file written by `write_dot`. -/
def dotHeadSpec : List Char :=
  "digraph L{\nnodesep=.25;\nnode[shape=circle,label=\"\"];\nedge[dir=\"none\",minlen=2,fontsize=11,labelfloat=true,fontname=Arial];\n".toList

/-- The first four lines of the file written by `uwrite_dot`. -/
def udotHeadSpec : List Char :=
  "digraph L{\nnodesep=.25;\nnode[shape=circle,label=\"\"];\nedge[dir=\"none\",minlen=2,fontsize=9,labelfloat=true,fontname=Arial,color=grey,style=\"setlinewidth(.7)\"];\n".toList

theorem dotHead_eq : dotHead = dotHeadSpec := by decide +kernel

theorem udotHead_eq : udotHead = udotHeadSpec := by decide +kernel

/-- `write_dot` writes the diagram of the concept system; labels have at most four names or their number. With the empty
path it raises AssertionError. -/
theorem C103_write_dot (ordo orda : SetOrder (List Char)) (path : List Char)
    {cs : List (Concept (List Char) (List Char))} (hn : cs.Nodup) :
    (path = [] → writeDot ordo orda ordc path cs = .error .assertionError) ∧
    (path ≠ [] → ∃ stmts, writeDot ordo orda ordc path cs =
        .ok (dotHeadSpec ++ stmts.flatMap (DotStmt.render fun head _ => if head then ['1'] else ['2']) ++ ['}']) ∧
      Diagram ordo orda (fun l => if l.length < 5 then l else [natStr l.length]) cs stmts) := by
  have hf : (fun l : List (List Char) => if l.length < 5 then l else [natStr l.length]) = dotLabel := by
    funext l
    unfold dotLabel
    split_ifs <;> first | rfl | omega
  rw [hf, ← dotHead_eq]
  refine ⟨fun h => by subst h; rfl, fun h => ?_⟩
  obtain ⟨es, h1, h2, h3⟩ := C79_edges ordc hn
  let dist : Bool → ℕ → List Char := fun head _ => if head then ['1'] else ['2']
  refine ⟨cs.zipIdx.flatMap (fun p => .node p.2 :: nodeLabels ordo orda dotLabel cs p) ++
    es.map fun e => .edge e.1 e.2, ?_, diagram_of_perm h2 h3 ?_⟩
  · unfold writeDot
    rw [if_neg fun e => h (List.length_eq_zero_iff.1 e)]
    rw [mapM_range_zipIdx (l := cs) (g := fun p =>
      (DotStmt.node p.2 :: nodeLabels ordo orda dotLabel cs p).flatMap (DotStmt.render dist)), py_ok_bind, h1, py_ok_bind]
    · rw [edgeText_eq dist, List.flatMap_append]
      simp only [List.append_assoc, List.flatMap_assoc]
      rw [List.flatMap_def (l := cs.zipIdx)]
    · intro i con hi
      rw [pyGet_ok hi, py_ok_bind]
      have e1 := (labelText_eq dist dotLabel i (ownObjects ordo cs con)).1
      have e2 := (labelText_eq dist dotLabel i (ownAttributes orda cs con)).2
      have t1 : "labeldistance=1,labelangle=270,color=transparent]\n".toList = "labeldistance=".toList ++ ['1'] ++
        ",labelangle=270,color=transparent]\n".toList := by decide
      have t2 : "labeldistance=2,labelangle=90,color=transparent]\n".toList = "labeldistance=".toList ++ ['2'] ++
        ",labelangle=90,color=transparent]\n".toList := by decide
      simp only [nodeLabels, List.flatMap_cons, List.flatMap_append, ← e1, ← e2, t1, t2]
      simp only [DotStmt.render, dotNodeText, natStr, List.append_assoc]
      rfl
  · have hi := perm_interleave cs.zipIdx (fun p => [DotStmt.node p.2]) (nodeLabels ordo orda dotLabel cs)
    have hr : cs.zipIdx.flatMap (fun p => [DotStmt.node p.2]) = (List.range cs.length).map .node := by
      rw [show List.range cs.length = cs.zipIdx.map Prod.snd by simp [List.range_eq_range'], List.map_map]
      exact (List.map_eq_flatMap ..).symm
    rw [hr] at hi
    refine (hi.append_right _).trans ?_
    rw [List.append_assoc]
    exact List.Perm.append_left _ List.perm_append_comm

/-- `uwrite_dot` writes the diagram of the concept system; a label is the number of names, with `full` the first six
names. With the empty path it raises AssertionError. -/
theorem C103_uwrite_dot (ordo orda : SetOrder (List Char)) (dist : ℕ → List Char) (path : List Char) (full : Bool)
    {cs : List (Concept (List Char) (List Char))} (hn : cs.Nodup) :
    (path = [] → uwriteDot ordo orda ordc dist path cs full = .error .assertionError) ∧
    (path ≠ [] → ∃ stmts, uwriteDot ordo orda ordc dist path cs full =
        .ok (udotHeadSpec ++ stmts.flatMap (DotStmt.render fun _ n => dist n) ++ ['}']) ∧
      Diagram ordo orda (fun l => if full then (if l.length ≤ 6 then l else l.take 6 ++ ["...".toList])
        else if l = [] then [] else [natStr l.length]) cs stmts) := by
  have hf : (fun l : List (List Char) => if full then (if l.length ≤ 6 then l else l.take 6 ++ ["...".toList])
        else if l = [] then [] else [natStr l.length]) = udotLabel full := by
    funext l
    unfold udotLabel
    cases full with
    | true =>
      simp only [if_true, Bool.not_true, if_neg Bool.false_ne_true]
      split_ifs <;> first | rfl | omega
    | false =>
      cases l with
      | nil => rfl
      | cons x l => simp
  rw [hf, ← udotHead_eq]
  refine ⟨fun h => by subst h; rfl, fun h => ?_⟩
  obtain ⟨es, h1, h2, h3⟩ := C79_edges ordc hn
  let dist' : Bool → ℕ → List Char := fun _ n => dist n
  refine ⟨(List.range cs.length).map .node ++ (es.map (fun e => .edge e.1 e.2) ++
      cs.zipIdx.flatMap (nodeLabels ordo orda (udotLabel full) cs)), ?_, diagram_of_perm h2 h3 (.refl _)⟩
  unfold uwriteDot
  rw [if_neg fun e => h (List.length_eq_zero_iff.1 e), h1, py_ok_bind]
  rw [mapM_range_zipIdx (l := cs) (g := fun p =>
    (nodeLabels ordo orda (udotLabel full) cs p).flatMap (DotStmt.render dist')), py_ok_bind]
  · rw [edgeText_eq dist', List.flatMap_append, List.flatMap_append, List.flatMap_assoc, List.flatMap_map]
    simp only [List.append_assoc]
    rw [List.flatMap_def (l := cs.zipIdx)]
    have hnode : dotNodeText = fun a => DotStmt.render dist' (.node a) := rfl
    have hd : (DotStmt.render fun _ n => dist n) = DotStmt.render dist' := rfl
    rw [hd, hnode, List.flatMap_map]
  · intro i con hi
    rw [pyGet_ok hi, py_ok_bind]
    have e1 := (labelText_eq dist' (udotLabel full) i (ownObjects ordo cs con)).1
    have e2 := (labelText_eq dist' (udotLabel full) i (ownAttributes orda cs con)).2
    simp only [nodeLabels, List.flatMap_append, ← e1, ← e2]
    rfl

end

section counts

variable {α β : Type} [DecidableEq α] [DecidableEq β]

/-- The numbers in the labels of a concept lattice add up to the numbers of objects and attributes. -/
theorem C103_counts (ordo : SetOrder α) (orda : SetOrder β) {c : Ctx α β} (h : c.WFw) {cs : List (Concept α β)}
    (hcs : norris c = .ok cs) :
    (cs.map fun con => (ownObjects ordo cs con).length).sum = c.objects.length ∧
      (cs.map fun con => (ownAttributes orda cs con).length).sum = c.attributes.length := by
  have hnd : cs.Nodup := by
    obtain ⟨cs', h1, h2, -⟩ := C34_norris h
    rw [hcs] at h1
    obtain rfl : cs = cs' := by injection h1
    exact h2
  constructor
  · rw [← List.length_flatMap]
    refine List.Perm.length_eq ((List.perm_ext_iff_of_nodup ?_ h.onodup).2 fun o => ?_)
    · rw [List.nodup_flatMap]
      refine ⟨fun con _ => (ordo.nodup _).filter _, hnd.imp_of_mem ?_⟩
      intro x y hx hy hne
      show List.Disjoint _ _
      rw [List.disjoint_left]
      intro o h1 h2
      obtain ⟨z, -, -, -, hz, -⟩ := C68_objects ordo h hcs ((C68_only_names ordo orda h hcs hx).1 o h1)
      exact hne (((hz x hx).1 h1).trans ((hz y hy).1 h2).symm)
    · rw [List.mem_flatMap]
      constructor
      · rintro ⟨con, hcon, ho⟩
        exact (C68_only_names ordo orda h hcs hcon).1 o ho
      · intro ho
        obtain ⟨y, hy, -, -, hz, -⟩ := C68_objects ordo h hcs ho
        exact ⟨y, hy, (hz y hy).2 rfl⟩
  · rw [← List.length_flatMap]
    refine List.Perm.length_eq ((List.perm_ext_iff_of_nodup ?_ h.anodup).2 fun o => ?_)
    · rw [List.nodup_flatMap]
      refine ⟨fun con _ => (orda.nodup _).filter _, hnd.imp_of_mem ?_⟩
      intro x y hx hy hne
      show List.Disjoint _ _
      rw [List.disjoint_left]
      intro o h1 h2
      obtain ⟨z, -, -, -, hz, -⟩ := C68_attributes orda h hcs ((C68_only_names ordo orda h hcs hx).2 o h1)
      exact hne (((hz x hx).1 h1).trans ((hz y hy).1 h2).symm)
    · rw [List.mem_flatMap]
      constructor
      · rintro ⟨con, hcon, ho⟩
        exact (C68_only_names ordo orda h hcs hcon).2 o ho
      · intro ho
        obtain ⟨y, hy, -, -, hz, -⟩ := C68_attributes orda h hcs ho
        exact ⟨y, hy, (hz y hy).2 rfl⟩

end counts

theorem enum_singleton {γ : Type} (ord : SetOrder γ) (x : γ) : ord.enum {x} = [x] := by
  have h1 := ord.nodup {x}
  have h2 := ord.mem {x}
  cases h : ord.enum {x} with
  | nil =>
    rw [h] at h2
    exact absurd ((h2 x).2 (Finset.mem_singleton_self x)) (by simp)
  | cons y l =>
    rw [h] at h1 h2
    have hy : y = x := Finset.mem_singleton.1 ((h2 y).1 (by simp))
    subst hy
    cases l with
    | nil => rfl
    | cons z l =>
      have hz : z = y := Finset.mem_singleton.1 ((h2 z).1 (by simp))
      subst hz
      simp at h1

theorem enum_empty {γ : Type} (ord : SetOrder γ) : ord.enum ∅ = [] :=
  List.eq_nil_iff_forall_not_mem.2 fun x hx => by simp at hx

theorem enum_pair {γ : Type} [DecidableEq γ] (ord : SetOrder γ) {x y : γ} (hne : x ≠ y) :
    ord.enum {x, y} = [x, y] ∨ ord.enum {x, y} = [y, x] := by
  have hp : (ord.enum {x, y}).Perm [x, y] :=
    (List.perm_ext_iff_of_nodup (ord.nodup _) (by simp [hne])).2 fun z => by simp
  have hl := hp.length_eq
  match h : ord.enum {x, y}, hl with
  | [a, b], _ =>
    rw [h] at hp
    have h1 := hp.nodup_iff.2 (by simp [hne])
    have ha : a = x ∨ a = y := by simpa using (hp.mem_iff (a := a)).1 (by simp)
    have hb : b = x ∨ b = y := by simpa using (hp.mem_iff (a := b)).1 (by simp)
    grind

theorem own_single {α β : Type} [DecidableEq α] [DecidableEq β] (ordo : SetOrder α) (orda : SetOrder β)
    (con : Concept α β) : ownObjects ordo [con] con = ordo.enum con.extent ∧
      ownAttributes orda [con] con = orda.enum con.intent := by
  unfold ownObjects ownAttributes
  simp

theorem writeDot_single (ordc : SetOrder (Concept (List Char) (List Char))) {path : List Char} (hp : path ≠ [])
    (ordo orda : SetOrder (List Char)) (con : Concept (List Char) (List Char)) :
    writeDot ordo orda ordc path [con] = .ok (dotHead ++ (dotNodeText 0 ++
      dotLabelText "headlabel".toList "labeldistance=1,labelangle=270,color=transparent]\n".toList 0
        (ordo.enum con.extent) (dotLabel (ordo.enum con.extent)) ++
      dotLabelText "taillabel".toList "labeldistance=2,labelangle=90,color=transparent]\n".toList 0
        (orda.enum con.intent) (dotLabel (orda.enum con.intent))) ++ ['}']) := by
  obtain ⟨es, h1, -, h3⟩ := C79_edges ordc (cs := [con]) (by simp)
  have he : es = [] := by
    refine List.eq_nil_iff_forall_not_mem.2 fun e hm => ?_
    obtain ⟨p, q, hp, hq, hc⟩ := (h3 e.1 e.2).1 hm
    have h1 : p = con := by simpa using List.mem_of_getElem? hp
    have h2 : q = con := by simpa using List.mem_of_getElem? hq
    subst h1 h2
    exact hc.2.1.2 hc.2.1.1
  subst he
  unfold writeDot
  rw [if_neg fun e => hp (List.length_eq_zero_iff.1 e), h1]
  have hr : List.range [con].length = [0] := rfl
  rw [hr, List.mapM_cons]
  simp only [pyGet, List.getElem?_cons_zero, py_ok_bind, List.mapM_nil, (own_single ordo orda con).1,
    (own_single ordo orda con).2]
  simp [dotEdgeText, pure, Except.pure, py_ok_bind]

/-- Names are not escaped: the file of the lattice with the objects `a`, `b` is also the file of a lattice with one
object. -/
theorem C103_escape_violated (ordc : SetOrder (Concept (List Char) (List Char))) (path : List Char) (hp : path ≠ [])
    (ordo orda : SetOrder (List Char)) : ∃ x : List Char, ({['a'], ['b']} : Finset (List Char)) ≠ {x} ∧
    writeDot ordo orda ordc path [⟨{['a'], ['b']}, ∅⟩] = writeDot ordo orda ordc path [⟨{x}, ∅⟩] := by
  rcases enum_pair ordo (x := ['a']) (y := ['b']) (by decide) with h | h
  · refine ⟨"a\\n b".toList, by decide, ?_⟩
    rw [writeDot_single ordc hp, writeDot_single ordc hp]
    simp only [h, enum_singleton, enum_empty]
    rfl
  · refine ⟨"b\\n a".toList, by decide, ?_⟩
    rw [writeDot_single ordc hp, writeDot_single ordc hp]
    simp only [h, enum_singleton, enum_empty]
    rfl

def csText : List (Concept (List Char) (List Char)) :=
  [⟨∅, {"m".toList, "n".toList}⟩, ⟨{"g".toList}, {"m".toList}⟩, ⟨{"h".toList}, {"n".toList}⟩, ⟨{"g".toList, "h".toList}, ∅⟩]

example : csText.Nodup := by decide +kernel
