/-
Property C105: the labelled diagram of a concept lattice determines its order and its context.
-/
import Verif.Props.ReadWrite
import Verif.Props.Factors
import Mathlib.Logic.Relation
import Mathlib.Data.Finset.Lattice.Basic

set_option linter.unusedSectionVars false

variable {α β : Type} [DecidableEq α] [DecidableEq β]

open Spec

/-- Between two members of a list with comparable intents there is a chain of neighbours. -/
theorem covers_chain (cs : List (Concept α β)) (n : ℕ) (x y : Concept α β) (hx : x ∈ cs) (hy : y ∈ cs)
    (hlt : y.intent ⊂ x.intent) (hc : x.intent.card - y.intent.card ≤ n) :
    Relation.TransGen (fun a b => a ∈ cs ∧ Covers Concept.intent cs b a) x y := by
  induction n generalizing x y with
  | zero =>
    have := Finset.card_lt_card hlt
    omega
  | succ n ih =>
    by_cases hk : ∃ k ∈ cs, y.intent ⊂ k.intent ∧ k.intent ⊂ x.intent
    · obtain ⟨k, hk, h1, h2⟩ := hk
      have c1 := Finset.card_lt_card h1
      have c2 := Finset.card_lt_card h2
      exact (ih x k hx hk h2 (by omega)).trans (ih k y hk hy h1 (by omega))
    · exact .single ⟨hx, hy, hlt, hk⟩

/-- Going up along neighbours leads exactly to the members with a smaller intent. -/
theorem covers_reach (cs : List (Concept α β)) {x y : Concept α β} (hx : x ∈ cs) :
    Relation.ReflTransGen (fun a b => a ∈ cs ∧ Covers Concept.intent cs b a) x y ↔
      y = x ∨ (y ∈ cs ∧ y.intent ⊂ x.intent) := by
  constructor
  · intro hr
    induction hr with
    | refl => exact .inl rfl
    | tail _ hab ih =>
      rename_i a b _
      rcases ih with rfl | ⟨-, hlt⟩
      · exact .inr ⟨hab.2.1, hab.2.2.1⟩
      · exact .inr ⟨hab.2.1, hab.2.2.1.trans hlt⟩
  · rintro (rfl | ⟨hy, hlt⟩)
    · exact .refl
    · exact (covers_chain cs _ x y hx hy hlt le_rfl).to_reflTransGen

/-! ### C105 -/

/-- For every concept system without repetitions: node `k` can be reached from node `i` along the edges of the diagram
if and only if `i = k` or the intent of `k` is a proper subset of that of `i`. -/
theorem C105_reach (ord : SetOrder (Concept α β)) {cs : List (Concept α β)} (hn : cs.Nodup) {es : List (ℕ × ℕ)}
    (he : dotEdges ord cs = .ok es) {i k : ℕ} {x y : Concept α β} (hx : cs[i]? = some x) (hy : cs[k]? = some y) :
    Relation.ReflTransGen (fun a b => (b, a) ∈ es) i k ↔ i = k ∨ y.intent ⊂ x.intent := by
  obtain ⟨es', he', -, hmem⟩ := C79_edges ord hn
  rw [he] at he'
  obtain rfl : es = es' := Except.ok.inj he'
  have hxm := List.mem_of_getElem? hx
  have hym := List.mem_of_getElem? hy
  have hinj : ∀ {a b : ℕ} {z : Concept α β}, cs[a]? = some z → cs[b]? = some z → a = b := by
    intro a b z ha hb
    obtain ⟨ha1, ha2⟩ := List.getElem?_eq_some_iff.1 ha
    obtain ⟨hb1, hb2⟩ := List.getElem?_eq_some_iff.1 hb
    exact (List.Nodup.getElem_inj_iff hn).1 (ha2.trans hb2.symm)
  have key : Relation.ReflTransGen (fun a b => (b, a) ∈ es) i k ↔
      Relation.ReflTransGen (fun a b => a ∈ cs ∧ Covers Concept.intent cs b a) x y := by
    constructor
    · intro hr
      induction hr generalizing y with
      | refl =>
        rw [hx] at hy
        obtain rfl := Option.some.inj hy
        exact .refl
      | tail hab hbc ih =>
        rename_i b d
        obtain ⟨p, con, h1, h2, h3⟩ := (hmem d b).1 hbc
        rw [hy] at h1
        obtain rfl := Option.some.inj h1
        exact (ih h2 (List.mem_of_getElem? h2)).tail ⟨List.mem_of_getElem? h2, h3⟩
    · intro hr
      induction hr generalizing k with
      | refl => rw [hinj hx hy]
      | tail hab hbc ih =>
        rename_i b d
        obtain ⟨m, hm, hm'⟩ := List.getElem_of_mem hbc.1
        have hm2 : cs[m]? = some b := by rw [List.getElem?_eq_getElem hm, hm']
        exact (ih hm2 hbc.1).tail ((hmem k m).2 ⟨d, b, hy, hm2, hbc.2⟩)
  rw [key, covers_reach cs hxm]
  constructor
  · rintro (rfl | ⟨-, h⟩)
    · exact .inl (hinj hx hy)
    · exact .inr h
  · rintro (rfl | h)
    · rw [hx] at hy; exact .inl (Option.some.inj hy).symm
    · exact .inr ⟨hym, h⟩

/-- In the diagram of a concept lattice node `k` is reached from node `i` exactly when the concept of `k` is more
general. -/
theorem C105_order (ord : SetOrder (Concept α β)) {c : Ctx α β} (h : c.WFw) {cs : List (Concept α β)}
    (hcs : norris c = .ok cs) {es : List (ℕ × ℕ)} (he : dotEdges ord cs = .ok es) {i k : ℕ} {x y : Concept α β}
    (hx : cs[i]? = some x) (hy : cs[k]? = some y) :
    Relation.ReflTransGen (fun a b => (b, a) ∈ es) i k ↔ x.extent ⊆ y.extent := by
  obtain ⟨cs', hcs', hn, hmem⟩ := C34_norris h
  rw [hcs] at hcs'
  obtain rfl : cs = cs' := Except.ok.inj hcs'
  rw [C105_reach ord hn he hx hy]
  have hxc := (hmem x).1 (List.mem_of_getElem? hx)
  have hyc := (hmem y).1 (List.mem_of_getElem? hy)
  constructor
  · rintro (rfl | hlt)
    · rw [hx] at hy; rw [Option.some.inj hy]
    · intro g hg
      exact (hyc.2 g).2 ⟨((hxc.2 g).1 hg).1, fun m hm => ((hxc.2 g).1 hg).2 m (hlt.subset hm)⟩
  · intro hsub
    have hi : y.intent ⊆ x.intent := fun m hm =>
      (hxc.1 m).2 ⟨((hyc.1 m).1 hm).1, fun g hg => ((hyc.1 m).1 hm).2 g (hsub hg)⟩
    by_cases hxy : x.intent = y.intent
    · left
      have : x = y := by
        have hE : x.extent = y.extent := by
          ext g; rw [hxc.2 g, hyc.2 g, hxy]
        cases x; cases y; simp_all
      subst this
      obtain ⟨ha1, ha2⟩ := List.getElem?_eq_some_iff.1 hx
      obtain ⟨hb1, hb2⟩ := List.getElem?_eq_some_iff.1 hy
      exact (List.Nodup.getElem_inj_iff hn).1 (ha2.trans hb2.symm)
    · exact .inr (hi.ssubset_of_ne (Ne.symm hxy))

/-- The labelled diagram represents the context: object `o`, written at node `i`, has attribute `a`, written at node
`k`, if and only if `k` is reached from `i` by going up. -/
theorem C105_context (ord : SetOrder (Concept α β)) (ordo : SetOrder α) (orda : SetOrder β) {c : Ctx α β} (h : c.WFw)
    {cs : List (Concept α β)} (hcs : norris c = .ok cs) {es : List (ℕ × ℕ)} (he : dotEdges ord cs = .ok es)
    {i k : ℕ} {x y : Concept α β} (hx : cs[i]? = some x) (hy : cs[k]? = some y) {o : α} {a : β}
    (ho : o ∈ ownObjects ordo cs x) (ha : a ∈ ownAttributes orda cs y) :
    Relation.ReflTransGen (fun a b => (b, a) ∈ es) i k ↔ c.Inc o a := by
  rw [C105_order ord h hcs he hx hy]
  have hxm := List.mem_of_getElem? hx
  have hym := List.mem_of_getElem? hy
  have hoc := (C68_only_names ordo orda h hcs hxm).1 o ho
  have hac := (C68_only_names ordo orda h hcs hym).2 a ha
  obtain ⟨x', hx', hox, hmin, honly, -⟩ := C68_objects ordo h hcs hoc
  obtain rfl := (honly x hxm).1 ho
  obtain ⟨y', hy', hay, hmina, honlya, -⟩ := C68_attributes orda h hcs hac
  obtain rfl := (honlya y hym).1 ha
  obtain ⟨cs', hcs', -, hmem⟩ := C34_norris h
  rw [hcs] at hcs'
  obtain rfl : cs = cs' := Except.ok.inj hcs'
  have hyc := (hmem y).1 hym
  constructor
  · intro hsub
    exact ((hyc.1 a).1 hay).2 o (hsub hox)
  · intro hI
    obtain ⟨z, hz, haz, hzmin⟩ : ∃ z ∈ cs, a ∈ z.intent ∧ o ∈ z.extent := by
      refine ⟨⟨c.downF {a}, c.upF (c.downF {a})⟩, (hmem _).2 (isConcept_gen h ?_), ?_, ?_⟩
      · intro m hm
        have : m = a := by simpa using hm
        rw [this, List.mem_toFinset]; exact hac
      · refine h.aclF_ext ?_ (by simp)
        intro m hm
        have : m = a := by simpa using hm
        rw [this, List.mem_toFinset]; exact hac
      · refine h.mem_downF.2 ⟨hoc, fun m hm => ?_⟩
        have : m = a := by simpa using hm
        exact this ▸ hI
    exact (hmin z hz hzmin).trans (hmina z hz haz).2

/-- Contexts with the same names and the same labelled diagram (labels may be listed in another order) have the same
crosses. -/
theorem C105_determined (ord ord' : SetOrder (Concept α β)) (ordo ordo' : SetOrder α) (orda orda' : SetOrder β)
    {c c' : Ctx α β} (h : c.WFw) (h' : c'.WFw) {cs cs' : List (Concept α β)} (hcs : norris c = .ok cs)
    (hcs' : norris c' = .ok cs') {es es' : List (ℕ × ℕ)} (he : dotEdges ord cs = .ok es)
    (he' : dotEdges ord' cs' = .ok es') (hobj : ∀ o, o ∈ c'.objects → o ∈ c.objects)
    (hatt : ∀ a, a ∈ c'.attributes → a ∈ c.attributes) (hedge : ∀ e, e ∈ es ↔ e ∈ es')
    (hlab : ∀ (i : ℕ) x, cs[i]? = some x → ∃ x', cs'[i]? = some x' ∧
      (∀ o, o ∈ ownObjects ordo cs x → o ∈ ownObjects ordo' cs' x') ∧
      ∀ a, a ∈ ownAttributes orda cs x → a ∈ ownAttributes orda' cs' x') (o : α) (a : β) :
    c.Inc o a ↔ c'.Inc o a := by
  by_cases ho : o ∈ c.objects
  · by_cases ha : a ∈ c.attributes
    · obtain ⟨x, hx, -, -, hxo, -⟩ := C68_objects ordo h hcs ho
      obtain ⟨y, hy, -, -, hya, -⟩ := C68_attributes orda h hcs ha
      obtain ⟨i, hi, hi'⟩ := List.getElem_of_mem hx
      obtain ⟨k, hk, hk'⟩ := List.getElem_of_mem hy
      have hix : cs[i]? = some x := by rw [List.getElem?_eq_getElem hi, hi']
      have hky : cs[k]? = some y := by rw [List.getElem?_eq_getElem hk, hk']
      have hox := (hxo x hx).2 rfl
      have hay := (hya y hy).2 rfl
      obtain ⟨x', hx', hxl, -⟩ := hlab i x hix
      obtain ⟨y', hy', -, hyl⟩ := hlab k y hky
      rw [← C105_context ord ordo orda h hcs he hix hky hox hay,
        ← C105_context ord' ordo' orda' h' hcs' he' hx' hy' (hxl o hox) (hyl a hay)]
      have : (fun a b => (b, a) ∈ es) = fun a b => (b, a) ∈ es' := by
        funext a b; exact propext (hedge _)
      rw [this]
    · exact ⟨fun hI => absurd hI.mem.2 ha, fun hI => absurd (hatt a hI.mem.2) ha⟩
  · exact ⟨fun hI => absurd hI.mem.1 ho, fun hI => absurd (hobj o hI.mem.1) ho⟩

/-- The concepts form a complete lattice: every list of concepts has a greatest common subconcept, whose extent is the
intersection of the extents, and a least common superconcept, whose intent is the intersection of the intents. -/
theorem C105_bounds {c : Ctx α β} (h : c.WFw) {cs : List (Concept α β)} (hcs : norris c = .ok cs)
    (S : List (Concept α β)) (hS : ∀ x ∈ S, x ∈ cs) :
    (∃ y ∈ cs, (∀ g, g ∈ y.extent ↔ g ∈ c.objects ∧ ∀ x ∈ S, g ∈ x.extent) ∧
      ∀ z ∈ cs, z.extent ⊆ y.extent ↔ ∀ x ∈ S, z.extent ⊆ x.extent) ∧
    ∃ y ∈ cs, (∀ m, m ∈ y.intent ↔ m ∈ c.attributes ∧ ∀ x ∈ S, m ∈ x.intent) ∧
      ∀ z ∈ cs, y.extent ⊆ z.extent ↔ ∀ x ∈ S, x.extent ⊆ z.extent := by
  have hall := norris_all h hcs
  have hle : ∀ x ∈ cs, ∀ y ∈ cs, x.extent ⊆ y.extent ↔ y.intent ⊆ x.intent := by
    intro x hx y hy
    constructor
    · intro hsub m hm
      exact ((hall.mem x hx).1 m).2 ⟨(((hall.mem y hy).1 m).1 hm).1,
        fun g hg => (((hall.mem y hy).1 m).1 hm).2 g (hsub hg)⟩
    · intro hsub g hg
      exact ((hall.mem y hy).2 g).2 ⟨(((hall.mem x hx).2 g).1 hg).1,
        fun m hm => (((hall.mem x hx).2 g).1 hg).2 m (hsub hm)⟩
  constructor
  · obtain ⟨A, hA⟩ : ∃ A : Finset α, ∀ g, g ∈ A ↔ g ∈ c.objects ∧ ∀ x ∈ S, g ∈ x.extent :=
      ⟨c.objects.toFinset.filter fun g => ∀ x ∈ S, g ∈ x.extent, by simp⟩
    obtain ⟨y, hy, hyA, -⟩ := hall.all A (c.upF A) (by
      refine ⟨fun m => ?_, fun g => ?_⟩
      · rw [h.mem_upF]; simp
      · constructor
        · intro hg
          exact ⟨List.mem_toFinset.2 ((hA g).1 hg).1, fun m hm => (h.mem_upF.1 hm).2 g hg⟩
        · rintro ⟨hg, hm⟩
          refine (hA g).2 ⟨List.mem_toFinset.1 hg, fun x hx => ?_⟩
          refine ((hall.mem x (hS x hx)).2 g).2 ⟨hg, fun m hmx => hm m (h.mem_upF.2 ⟨?_, fun g' hg' => ?_⟩)⟩
          · exact List.mem_toFinset.1 (((hall.mem x (hS x hx)).1 m).1 hmx).1
          · exact (((hall.mem x (hS x hx)).1 m).1 hmx).2 g' (((hA g').1 hg').2 x hx))
    refine ⟨y, hy, fun g => by rw [hyA, hA], fun z hz => ?_⟩
    rw [hyA]
    constructor
    · intro hsub x hx g hg
      exact ((hA g).1 (hsub hg)).2 x hx
    · intro hsub g hg
      exact (hA g).2 ⟨List.mem_toFinset.1 (((hall.mem z hz).2 g).1 hg).1, fun x hx => hsub x hx hg⟩
  · obtain ⟨B, hB⟩ : ∃ B : Finset β, ∀ m, m ∈ B ↔ m ∈ c.attributes ∧ ∀ x ∈ S, m ∈ x.intent :=
      ⟨c.attributes.toFinset.filter fun m => ∀ x ∈ S, m ∈ x.intent, by simp⟩
    obtain ⟨y, hy, -, hyB⟩ := hall.all (c.downF B) B (by
      refine ⟨fun m => ?_, fun g => ?_⟩
      · constructor
        · intro hm
          exact ⟨List.mem_toFinset.2 ((hB m).1 hm).1, fun g hg => (h.mem_downF.1 hg).2 m hm⟩
        · rintro ⟨hm, hg⟩
          refine (hB m).2 ⟨List.mem_toFinset.1 hm, fun x hx => ?_⟩
          refine ((hall.mem x (hS x hx)).1 m).2 ⟨hm, fun g hgx => hg g (h.mem_downF.2 ⟨?_, fun m' hm' => ?_⟩)⟩
          · exact List.mem_toFinset.1 (((hall.mem x (hS x hx)).2 g).1 hgx).1
          · exact (((hall.mem x (hS x hx)).2 g).1 hgx).2 m' (((hB m').1 hm').2 x hx)
      · rw [h.mem_downF]; simp)
    refine ⟨y, hy, fun m => by rw [hyB, hB], fun z hz => ?_⟩
    rw [hle y hy z hz, hyB]
    constructor
    · intro hsub x hx
      rw [hle x (hS x hx) z hz]
      exact fun m hm => ((hB m).1 (hsub hm)).2 x hx
    · intro hsub m hm
      exact (hB m).2 ⟨List.mem_toFinset.1 (((hall.mem z hz).1 m).1 hm).1,
        fun x hx => (hle x (hS x hx) z hz).1 (hsub x hx) hm⟩

/-! ### Concrete cases -/

example : ∃ cs es, norris cxtF = .ok cs ∧ dotEdges (SetOrder.any _) cs = .ok es ∧
    ∀ (i k : ℕ) x y, cs[i]? = some x → cs[k]? = some y → 0 ∈ ownObjects (SetOrder.fin 3) cs x →
      1 ∈ ownAttributes (SetOrder.fin 3) cs y → Relation.ReflTransGen (fun a b => (b, a) ∈ es) i k := by
  obtain ⟨cs, h1, h2, -⟩ := C34_norris cxtF_wf
  obtain ⟨es, h3, -⟩ := C79_edges (SetOrder.any _) h2
  exact ⟨cs, es, h1, h3, fun i k x y hx hy ho ha =>
    (C105_context _ _ _ cxtF_wf h1 h3 hx hy ho ha).2 ⟨0, 1, _, rfl, rfl, rfl, rfl⟩⟩
