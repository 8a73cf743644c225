/-
C157: explorations of fca/algorithms/exploration2 that share contexts.
-/
import Verif.Model.Exploration2World
import Verif.Props.Exploration2

set_option linter.unusedSectionVars false

open Spec

variable {α β : Type} [DecidableEq α] [DecidableEq β] [PyName α] [PyName β]

namespace E2W

open Ctx BExp

/-- The call asks for adding the object `o` with intent `B` to context `c`, to be checked against the basis of
session `b`. -/
def Adds (w : E2W α β) (c b : ℕ) (o : α) (B : Finset β) : Op α β → Prop
  | .addObject e o' B' => o' = o ∧ B' = B ∧ w.ecs[e]? = some (c, some b)
  | .reject k _ o' B' => o' = o ∧ B' = B ∧ ∃ e bg, w.sessions[k]? = some (e, bg) ∧ w.ecs[e]? = some (c, some b)
  | _ => False

theorem addObject_frame (w : E2W α β) (e : ℕ) (o : α) (B : Finset β) :
    (w.addObject e o B).1.ecs = w.ecs ∧ (w.addObject e o B).1.sessions = w.sessions ∧
    (w.addObject e o B).1.expls = w.expls ∧
    ∀ c, (w.addObject e o B).1.ctxs[c]? = w.ctxs[c]? ∨
      ∃ b s bg ctx, w.ecs[e]? = some (c, some b) ∧ w.sessions[b]? = some (s, bg) ∧ w.ctxs[c]? = some ctx ∧
        (∀ i ∈ bg, i.premise ⊆ B → i.conclusion ⊆ B) ∧
        (w.addObject e o B).1.ctxs[c]? = some (ctx.addObjectWithIntent B o).1 := by
  unfold addObject
  split
  · exact ⟨rfl, rfl, rfl, fun c => .inl rfl⟩
  · exact ⟨rfl, rfl, rfl, fun c => .inl rfl⟩
  · rename_i c b he
    split
    · rename_i s bg ctx hs hc
      split_ifs with hr
      · refine ⟨rfl, rfl, rfl, fun c' => ?_⟩
        by_cases hcc : c = c'
        · subst hcc
          refine .inr ⟨b, s, bg, ctx, he, hs, hc, fun i hi => (Imp.isRespected_iff' i B).1 (List.all_eq_true.1 hr i hi), ?_⟩
          have hlt : c < w.ctxs.length := (List.getElem?_eq_some_iff.1 hc).1
          simp only [List.getElem?_set_self hlt]
        · left
          simp only [List.getElem?_set_ne hcc]
      · exact ⟨rfl, rfl, rfl, fun c => .inl rfl⟩
    · exact ⟨rfl, rfl, rfl, fun c => .inl rfl⟩

/-- What one call, raising or not, can change. A context changes only by a call that adds an object through an
`ExplorationContext` of this context, whose current basis all of whose implications the intent respects; the
accepted implications of a session change only by its own `accept_implication`; an `ExplorationContext` keeps its
context, and its basis changes only by `create_session` of an exploration that holds it. -/
theorem C157_frame (w : E2W α β) (op : Op α β) :
    (∀ c, (w.exec op).1.ctxs[c]? = w.ctxs[c]? ∨
      ∃ b s bg ctx o B, Adds w c b o B op ∧ w.sessions[b]? = some (s, bg) ∧ w.ctxs[c]? = some ctx ∧
        (∀ i ∈ bg, i.premise ⊆ B → i.conclusion ⊆ B) ∧
        (w.exec op).1.ctxs[c]? = some (ctx.addObjectWithIntent B o).1) ∧
    (∀ k e bg, w.sessions[k]? = some (e, bg) → (w.exec op).1.sessions[k]? = some (e, bg) ∨
      ∃ i, op = .accept k i ∧ (w.exec op).1.sessions[k]? = some (e, bg ++ [i])) ∧
    (∀ e c b, w.ecs[e]? = some (c, b) → ∃ b', (w.exec op).1.ecs[e]? = some (c, b') ∧
      (b' = b ∨ ∃ x, op = .create x ∧ w.expls[x]? = some e ∧ b' = some w.sessions.length)) := by
  have happ : ∀ {γ : Type} {l : List γ} {y : γ} {n : ℕ} {x : γ}, l[n]? = some x → (l ++ [y])[n]? = some x := by
    intro γ l y n x h
    have hlt := (List.getElem?_eq_some_iff.1 h).1
    rw [List.getElem?_append_left hlt, h]
  have same : ∀ w' : E2W α β, w'.ctxs = w.ctxs → w'.sessions = w.sessions → w'.ecs = w.ecs →
      (∀ c, w'.ctxs[c]? = w.ctxs[c]? ∨ ∃ b s bg ctx o B, Adds w c b o B op ∧ w.sessions[b]? = some (s, bg) ∧
        w.ctxs[c]? = some ctx ∧ (∀ i ∈ bg, i.premise ⊆ B → i.conclusion ⊆ B) ∧
        w'.ctxs[c]? = some (ctx.addObjectWithIntent B o).1) ∧
      (∀ k e bg, w.sessions[k]? = some (e, bg) → w'.sessions[k]? = some (e, bg) ∨
        ∃ i, op = .accept k i ∧ w'.sessions[k]? = some (e, bg ++ [i])) ∧
      (∀ e c b, w.ecs[e]? = some (c, b) → ∃ b', w'.ecs[e]? = some (c, b') ∧
        (b' = b ∨ ∃ x, op = .create x ∧ w.expls[x]? = some e ∧ b' = some w.sessions.length)) := by
    intro w' h1 h2 h3
    rw [h1, h2, h3]
    exact ⟨fun c => .inl rfl, fun k e bg h => .inl h, fun e c b h => ⟨b, h, .inl rfl⟩⟩
  cases op with
  | wrap c =>
    simp only [exec, wrap, -reduceCtorEq]
    split
    · exact ⟨fun c => .inl rfl, fun k e bg h => .inl h, fun e c b h => ⟨b, happ h, .inl rfl⟩⟩
    · exact same w rfl rfl rfl
  | explore e =>
    simp only [exec, explore, -reduceCtorEq]
    split
    · exact same w rfl rfl rfl
    · exact ⟨fun c => .inl rfl, fun k e bg h => .inl h, fun e c b h => ⟨b, happ h, .inl rfl⟩⟩
  | setContext x e =>
    simp only [exec, setContext, -reduceCtorEq]
    split
    · exact ⟨fun c => .inl rfl, fun k e bg h => .inl h, fun e c b h => ⟨b, happ h, .inl rfl⟩⟩
    · exact same w rfl rfl rfl
  | create x =>
    simp only [exec, create, -reduceCtorEq]
    split
    · exact same w rfl rfl rfl
    · rename_i e he
      split
      · exact same w rfl rfl rfl
      · rename_i p hp
        refine ⟨fun c => .inl rfl, fun k e bg h => .inl (happ h), fun e' c b h => ?_⟩
        by_cases hee : e = e'
        · subst hee
          rw [hp] at h
          cases h
          have hlt : e < w.ecs.length := (List.getElem?_eq_some_iff.1 hp).1
          exact ⟨some w.sessions.length, by simp only [List.getElem?_set_self hlt], .inr ⟨x, rfl, he, rfl⟩⟩
        · exact ⟨b, by simp only [List.getElem?_set_ne hee, h], .inl rfl⟩
  | accept k i =>
    simp only [exec, accept, -reduceCtorEq]
    split
    · exact same w rfl rfl rfl
    · rename_i e bg hk
      refine ⟨fun c => .inl rfl, fun k' e' bg' h => ?_, fun e c b h => ⟨b, h, .inl rfl⟩⟩
      by_cases hkk : k = k'
      · subst hkk
        rw [hk] at h
        cases h
        have hlt : k < w.sessions.length := (List.getElem?_eq_some_iff.1 hk).1
        exact .inr ⟨i, rfl, by simp only [List.getElem?_set_self hlt]⟩
      · exact .inl (by simp only [List.getElem?_set_ne hkk, h])
  | addObject e o B =>
    obtain ⟨h1, h2, -, h4⟩ := addObject_frame w e o B
    simp only [exec]
    rw [h1, h2]
    refine ⟨fun c => ?_, fun k e bg h => .inl h, fun e c b h => ⟨b, h, .inl rfl⟩⟩
    rcases h4 c with h | ⟨b, s, bg, ctx, h5, h6, h7, h8, h9⟩
    · exact .inl h
    · exact .inr ⟨b, s, bg, ctx, o, B, ⟨rfl, rfl, h5⟩, h6, h7, h8, h9⟩
  | reject k i o B =>
    simp only [exec, reject, -reduceCtorEq]
    split
    · exact same w rfl rfl rfl
    · rename_i e bg₀ hk
      split
      · obtain ⟨h1, h2, -, h4⟩ := addObject_frame w e o B
        rw [h1, h2]
        refine ⟨fun c => ?_, fun k e bg h => .inl h, fun e c b h => ⟨b, h, .inl rfl⟩⟩
        rcases h4 c with h | ⟨b, s, bg, ctx, h5, h6, h7, h8, h9⟩
        · exact .inl h
        · exact .inr ⟨b, s, bg, ctx, o, B, ⟨rfl, rfl, e, bg₀, hk, h5⟩, h6, h7, h8, h9⟩
      · exact same w rfl rfl rfl

/-- The calls considered for session `k` on context `c`: it accepts only its own candidates, and objects are added to
context `c`, with new names, only through an `ExplorationContext` that checks against session `k`. Other sessions
accept what they like, and anything may happen to other contexts. -/
def OkCall (E : EDB.Env α β) (k c : ℕ) (w : E2W α β) (op : Op α β) : Prop :=
  (∀ i, op = .accept k i → ∃ L, w.candidates E k = .ok L ∧ i ∈ L) ∧
  ∀ b o B, Adds w c b o B op → b = k ∧ ∀ ctx, w.ctxs[c]? = some ctx → o ∉ ctx.objects

/-- Every call of the program is considered. -/
def OkRun (E : EDB.Env α β) (k c : ℕ) : E2W α β → List (Op α β) → Prop
  | _, [] => True
  | w, op :: ops => OkCall E k c w op ∧ OkRun E k c (w.exec op).1 ops

/-- Session `k` is on context `c`, a context in order, and what it has accepted holds there. -/
def Inv (k c : ℕ) (w : E2W α β) : Prop :=
  ∃ e bg b ctx, w.sessions[k]? = some (e, bg) ∧ w.ecs[e]? = some (c, b) ∧ w.ctxs[c]? = some ctx ∧ ctx.WFw ∧
    ctx.objects ≠ [] ∧ ValidBg ctx bg

theorem Inv.step {E : EDB.Env α β} {k c : ℕ} {w : E2W α β} (h : Inv k c w) {op : Op α β} (hop : OkCall E k c w op) :
    Inv k c (w.exec op).1 := by
  obtain ⟨e, bg, b, ctx, h1, h2, h3, h4, h5, h6⟩ := h
  obtain ⟨f1, f2, f3⟩ := C157_frame w op
  obtain ⟨b', hb', -⟩ := f3 e c b h2
  rcases f1 c with hc | ⟨b₁, s, bg₁, ctx₁, o, B, a1, a2, a3, a4, a5⟩
  · rw [h3] at hc
    rcases f2 k e bg h1 with hs | ⟨i, rfl, hs⟩
    · exact ⟨e, bg, b', ctx, hs, hb', hc, h4, h5, h6⟩
    · refine ⟨e, bg ++ [i], b', ctx, hs, hb', hc, h4, h5, ?_⟩
      obtain ⟨L, hL, hi⟩ := hop.1 i rfl
      simp only [candidates, h1, h2, h3] at hL
      obtain ⟨g1, -, g3, -⟩ := C24_basis_sound h4 _ _ _ _ _ _ hL i hi
      intro j hj
      rcases List.mem_append.1 hj with hj | hj
      · exact h6 j hj
      · rw [List.mem_singleton.1 hj]
        refine ⟨?_, g1⟩
        rw [g3]
        classical exact Finset.filter_subset _ _
  · obtain ⟨rfl, hfresh⟩ := hop.2 b₁ o B a1
    rw [h1] at a2
    cases a2
    rw [h3] at a3
    cases a3
    obtain ⟨c', e1, e2, e3, e4, e5⟩ := BExp.add_object_ctx h4 h5 (hfresh ctx h3) B
    rw [e1] at a5
    have hs : (w.exec op).1.sessions[b₁]? = some (e, bg) := by
      rcases f2 b₁ e bg h1 with hs | ⟨i, rfl, -⟩
      · exact hs
      · exact absurd a1 (by simp [Adds])
    refine ⟨e, bg, b', c', hs, hb', a5, e2, by rw [e3]; simp, ?_⟩
    intro i hi
    obtain ⟨v1, v2⟩ := h6 i hi
    have hM : c'.M = ctx.M := by simp only [Ctx.M, e4]
    refine ⟨hM ▸ v1, ?_⟩
    intro g hg hp m hm
    rw [e5]
    by_cases hgo : g = o
    · refine .inl ⟨hgo, ?_, ?_⟩
      · exact List.mem_toFinset.1 (v1 hm)
      · refine a4 i hi ?_ hm
        intro x hx
        have := (e5 g x).1 (hp x hx)
        rcases this with ⟨-, -, hB⟩ | ⟨hne, -⟩
        · exact hB
        · exact absurd hgo hne
    · refine .inr ⟨hgo, v2 g ?_ ?_ m hm⟩
      · have : g ∈ c'.objects := List.mem_toFinset.1 hg
        rw [e3, List.mem_append, List.mem_singleton] at this
        exact List.mem_toFinset.2 (this.resolve_right hgo)
      · intro x hx
        rcases (e5 g x).1 (hp x hx) with ⟨hgo', -⟩ | ⟨-, hI⟩
        · exact absurd hgo' hgo
        · exact hI

theorem Inv.run {E : EDB.Env α β} {k c : ℕ} {ops : List (Op α β)} {w : E2W α β} (h : Inv k c w)
    (hf : OkRun E k c w ops) : Inv k c (run w ops) := by
  induction ops generalizing w with
  | nil => exact h
  | cons op ops ih => exact ih (h.step hf.1) hf.2

/-- A session created in any state by any exploration: whatever the program does afterwards, with any other sessions,
explorations and contexts, what the session has accepted holds in its context, as long as the session accepts only
its candidates and objects get into its context only checked against this session. -/
theorem C157_valid {E : EDB.Env α β} {w : E2W α β} {x e c : ℕ} {b : Option ℕ} {ctx : Ctx α β}
    (hx : w.expls[x]? = some e) (he : w.ecs[e]? = some (c, b)) (hc : w.ctxs[c]? = some ctx) (h : ctx.WFw)
    (hne : ctx.objects ≠ []) {ops : List (Op α β)} (hf : OkRun E w.sessions.length c (w.create x).1 ops) :
    ∃ e' bg ctx', (run (w.create x).1 ops).sessions[w.sessions.length]? = some (e', bg) ∧
      (run (w.create x).1 ops).ctxs[c]? = some ctx' ∧
      ∀ i ∈ bg, HoldsIn ctx'.G ctx'.Inc i.premise i.conclusion := by
  have h0 : Inv w.sessions.length c (w.create x).1 := by
    have hlt : e < w.ecs.length := (List.getElem?_eq_some_iff.1 he).1
    refine ⟨e, [], some w.sessions.length, ctx, ?_, ?_, ?_, h, hne, by simp [ValidBg]⟩
    · simp [create, hx, he]
    · simp only [create, hx, he, List.getElem?_set_self hlt]
    · simp [create, hx, he, hc]
  obtain ⟨e', bg, b', ctx', h1, -, h3, -, -, h6⟩ := h0.run hf
  exact ⟨e', bg, ctx', h1, h3, fun i hi => (h6 i hi).2⟩

/-- The `ExplorationContext` a client has made never gets a basis: `Exploration(cxt)` and `set_context(cxt)` copy it, and
sessions set the basis of the copy. So `add_object` on it raises AttributeError in every later state and changes
nothing, however many sessions there are. -/
theorem C157_original_raises {w₀ : E2W α β} (h0 : w₀.ecs = [] ∧ w₀.expls = []) (ops : List (Op α β)) {c : ℕ}
    (hc : c < (run w₀ ops).ctxs.length) (ops' : List (Op α β)) (o : α) (B : Finset β) :
    let w := run ((run w₀ ops).wrap c).1 ops'
    w.addObject (run w₀ ops).ecs.length o B = (w, some .attributeError) := by
  have step : ∀ (w : E2W α β) (op : Op α β),
      (∀ e ∈ (w.exec op).1.expls, e ∈ w.expls ∨ e = w.ecs.length ∧ (w.exec op).1.ecs.length = w.ecs.length + 1) ∧
      w.ecs.length ≤ (w.exec op).1.ecs.length := by
    intro w op
    have same : ∀ w' : E2W α β, w'.expls = w.expls → w'.ecs.length = w.ecs.length →
        (∀ e ∈ w'.expls, e ∈ w.expls ∨ e = w.ecs.length ∧ w'.ecs.length = w.ecs.length + 1) ∧
        w.ecs.length ≤ w'.ecs.length := by
      intro w' h1 h2
      rw [h1, h2]
      exact ⟨fun e he => .inl he, Nat.le_refl _⟩
    cases op with
    | wrap c =>
      simp only [exec, wrap]
      split_ifs
      · refine ⟨fun e he => .inl he, by simp⟩
      · exact same w rfl rfl
    | explore e =>
      simp only [exec, explore]
      split
      · exact same w rfl rfl
      · refine ⟨fun e he => ?_, by simp⟩
        simp only [List.mem_append, List.mem_singleton] at he
        rcases he with he | rfl
        · exact .inl he
        · exact .inr ⟨rfl, by simp⟩
    | setContext x e =>
      simp only [exec, setContext]
      split
      · refine ⟨fun e he => ?_, by simp⟩
        rcases List.mem_or_eq_of_mem_set he with he | rfl
        · exact .inl he
        · exact .inr ⟨rfl, by simp⟩
      · exact same w rfl rfl
    | create x =>
      simp only [exec, create]
      split
      · exact same w rfl rfl
      · split
        · exact same w rfl rfl
        · exact same _ rfl (by simp)
    | accept k i =>
      simp only [exec, accept]
      split <;> exact same _ rfl rfl
    | addObject e o B =>
      obtain ⟨h1, -, h3, -⟩ := addObject_frame w e o B
      exact same _ h3 (by simp only [exec, h1])
    | reject k i o B =>
      simp only [exec, reject]
      split
      · exact same w rfl rfl
      · rename_i e bg hk
        split_ifs
        · obtain ⟨h1, -, h3, -⟩ := addObject_frame w e o B
          exact same _ h3 (by rw [h1])
        · exact same w rfl rfl
  have hlt : ∀ (ops : List (Op α β)) (w : E2W α β), (∀ e ∈ w.expls, e < w.ecs.length) →
      ∀ e ∈ (run w ops).expls, e < (run w ops).ecs.length := by
    intro ops
    induction ops with
    | nil => intro w h; exact h
    | cons op ops ih =>
      intro w h
      refine ih (w.exec op).1 ?_
      intro e he
      obtain ⟨s1, s2⟩ := step w op
      rcases s1 e he with h' | ⟨rfl, h'⟩
      · have := h e h'; omega
      · omega
  have hstart := hlt ops w₀ (by rw [h0.2]; simp)
  generalize run w₀ ops = w at hc hstart
  dsimp only
  have key : ∀ (ops' : List (Op α β)) (v : E2W α β) (n : ℕ), v.ecs[n]? = some (c, none) → n ∉ v.expls →
      (run v ops').ecs[n]? = some (c, none) := by
    intro ops'
    induction ops' with
    | nil => intro v n h _; exact h
    | cons op ops' ih =>
      intro v n h1 h2
      refine ih (v.exec op).1 n ?_ ?_
      · obtain ⟨b', hb, hb'⟩ := (C157_frame v op).2.2 n c none h1
        rcases hb' with rfl | ⟨x, -, hx, -⟩
        · exact hb
        · exact absurd (List.mem_of_getElem? hx) h2
      · intro he
        rcases (step v op).1 n he with h' | ⟨rfl, -⟩
        · exact h2 h'
        · simp at h1
  have := key ops' (w.wrap c).1 w.ecs.length (by simp [wrap, hc]) (by
    simp only [wrap, if_pos hc]
    intro he
    exact absurd (hstart _ he) (Nat.lt_irrefl _))
  simp only [addObject, this]

/-- One `Exploration` on one context: the state of `E2` and of the program that makes an `ExplorationContext` and an
`Exploration` from it. -/
def Sim (s : E2 α β) (w : E2W α β) : Prop :=
  w.ctxs = [s.ctx] ∧ w.expls = [1] ∧ w.sessions = s.sessions.map (fun bg => (1, bg)) ∧
    w.ecs = [(0, none), (0, if s.sessions = [] then none else some (s.sessions.length - 1))]

/-- A call on the one exploration. -/
def lift : E2.Op α β → Op α β
  | .create => .create 0
  | .accept k i => .accept k i
  | .reject k i o B => .reject k i o B
  | .addObject o B => .addObject 1 o B

theorem Sim.addObject {s : E2 α β} {w : E2W α β} (h : Sim s w) (o : α) (B : Finset β) :
    Sim (s.addObject o B).1 (w.addObject 1 o B).1 ∧ (s.addObject o B).2 = (w.addObject 1 o B).2 := by
  obtain ⟨cs, es, ss, xs⟩ := w
  obtain ⟨h1, h2, h3, h4⟩ := h
  dsimp only at h1 h2 h3 h4
  subst h1 h2 h3 h4
  by_cases hs : s.sessions = []
  · have e1 : s.addObject o B = (s, some .attributeError) := by
      unfold E2.addObject; rw [hs]; rfl
    rw [e1]
    simp only [E2W.addObject, hs]
    refine ⟨⟨rfl, rfl, ?_, ?_⟩, ?_⟩ <;> simp [hs]
  · have hlen : 0 < s.sessions.length := List.length_pos_iff.2 hs
    obtain ⟨bg, hbg⟩ : ∃ bg, s.sessions.getLast? = some bg := ⟨_, List.getLast?_eq_some_getLast hs⟩
    have hidx : s.sessions[s.sessions.length - 1]? = some bg := by
      rw [← List.getLast?_eq_getElem?, hbg]
    have e1 : s.addObject o B = if (bg.all fun i => i.isRespected B) = true then
        ({ s with ctx := (s.ctx.addObjectWithIntent B o).1 }, (s.ctx.addObjectWithIntent B o).2)
        else (s, some .illegalContextModification) := by
      unfold E2.addObject; rw [hbg]
    rw [e1]
    simp only [E2W.addObject, List.getElem?_cons_succ, List.getElem?_cons_zero, if_neg hs, List.getElem?_map, hidx,
      Option.map_some]
    split_ifs with hr
    · refine ⟨⟨rfl, rfl, rfl, ?_⟩, rfl⟩
      simp [hs]
    · refine ⟨⟨rfl, rfl, rfl, ?_⟩, rfl⟩
      simp [hs]

theorem Sim.step {s : E2 α β} {w : E2W α β} (h : Sim s w) (op : E2.Op α β) :
    Sim (s.exec op).1 (w.exec (lift op)).1 ∧ (s.exec op).2 = (w.exec (lift op)).2 := by
  cases op with
  | addObject o B => exact h.addObject o B
  | create =>
    obtain ⟨h1, h2, h3, h4⟩ := h
    simp only [E2.exec, E2.create, lift, exec, create, h2, List.getElem?_cons_zero, h4, List.getElem?_cons_succ]
    refine ⟨⟨h1, rfl, ?_, ?_⟩, trivial⟩
    · simp [h3]
    · simp [h3]
  | accept k i =>
    obtain ⟨h1, h2, h3, h4⟩ := h
    simp only [E2.exec, E2.accept, lift, exec, accept, h3, List.getElem?_map]
    cases hk : s.sessions[k]? with
    | none => exact ⟨⟨h1, h2, h3, h4⟩, rfl⟩
    | some bg =>
      refine ⟨⟨h1, h2, ?_, ?_⟩, rfl⟩
      · simp [List.map_set]
      · have hlt : k < s.sessions.length := (List.getElem?_eq_some_iff.1 hk).1
        have hs : s.sessions ≠ [] := List.length_pos_iff.1 (by omega)
        simp only [h4, if_neg hs, List.set_eq_nil_iff, List.length_set, Option.map_some]
  | reject k i o B =>
    obtain ⟨h1, h2, h3, h4⟩ := h
    simp only [E2.exec, E2.reject, lift, exec, reject]
    cases hk : s.sessions[k]? with
    | none =>
      have hk' : w.sessions[k]? = none := by rw [h3, List.getElem?_map, hk]; rfl
      simp only [hk']
      exact ⟨⟨h1, h2, h3, h4⟩, trivial⟩
    | some bg =>
      have hk' : w.sessions[k]? = some (1, bg) := by rw [h3, List.getElem?_map, hk]; rfl
      simp only [hk']
      split_ifs
      · exact Sim.addObject ⟨h1, h2, h3, h4⟩ o B
      · exact ⟨⟨h1, h2, h3, h4⟩, rfl⟩

/-- The model of one exploration (C60, C76) is the part of this model with one context, one `ExplorationContext` and one
`Exploration`: the same context, the same accepted implications and the same outcome of every next call, after every
history. -/
theorem C157_single (c : Ctx α β) (ops : List (E2.Op α β)) (op : E2.Op α β) :
    let s := E2.run ⟨c, []⟩ ops
    let w := run ⟨[c], [], [], []⟩ (.wrap 0 :: .explore 0 :: ops.map lift)
    w.ctxs = [s.ctx] ∧ w.sessions.map Prod.snd = s.sessions ∧ (w.exec (lift op)).2 = (s.exec op).2 := by
  have key : ∀ (ops : List (E2.Op α β)) (s : E2 α β) (w : E2W α β), Sim s w →
      Sim (E2.run s ops) (run w (ops.map lift)) := by
    intro ops
    induction ops with
    | nil => intro s w h; exact h
    | cons op ops ih => intro s w h; exact ih _ _ (h.step op).1
  have h := key ops ⟨c, []⟩ ⟨[c], [(0, none), (0, none)], [], [1]⟩ ⟨rfl, rfl, rfl, rfl⟩
  have hw : run (⟨[c], [], [], []⟩ : E2W α β) (.wrap 0 :: .explore 0 :: ops.map lift) =
      run ⟨[c], [(0, none), (0, none)], [], [1]⟩ (ops.map lift) := rfl
  dsimp only
  rw [hw]
  refine ⟨h.1, ?_, (h.step op).2.symm⟩
  rw [h.2.2.1, List.map_map]
  exact List.map_id _

/-- Without the condition on the additions C157 fails even for two sessions that both are the last session of their
`ExplorationContext`: after `set_context` with the same client object the new session checks only its own implications,
while the context is shared. The first session has accepted its candidate `∅ → {0, 1}` and refuses the counter example
`{1}`; given in the second session it is stored, and what the first session has accepted is false. -/
theorem C157_set_context_violated :
    let ops : List (Op (Fin 3) (Fin 2)) :=
      [.wrap 0, .explore 0, .create 0, .accept 0 ⟨∅, {0, 1}⟩, .setContext 0 0, .create 0]
    let w := run ⟨[E2.wit], [], [], []⟩ ops
    (run ⟨[E2.wit], [], [], []⟩ (ops.take 3)).candidates E2.witEnv 0 = .ok [⟨∅, {0, 1}⟩] ∧
    w.sessions = [(1, [⟨∅, {0, 1}⟩]), (2, [])] ∧ w.ecs = [(0, none), (0, some 0), (0, some 1)] ∧
    (w.exec (.reject 0 ⟨∅, {0}⟩ 1 {1})).2 = some .illegalContextModification ∧
    (w.exec (.reject 1 ⟨∅, {0}⟩ 1 {1})).2 = none ∧
    ∃ ctx, (w.exec (.reject 1 ⟨∅, {0}⟩ 1 {1})).1.ctxs = [ctx] ∧ ¬ HoldsIn ctx.G ctx.Inc ∅ {0, 1} := by
  refine ⟨by decide +kernel, by decide +kernel, by decide +kernel, by decide +kernel, by decide +kernel,
    ⟨[0, 1], [0, 1], ⟨some 2, [[true, true], [false, true]]⟩⟩, by decide +kernel, ?_⟩
  have hw : (⟨[0, 1], [0, 1], ⟨some 2, [[true, true], [false, true]]⟩⟩ : Ctx (Fin 3) (Fin 2)).WFw := by
    constructor <;> decide +kernel
  simp only [HoldsIn, ← hw.incB]
  decide +kernel

/-- `add_object` through an `ExplorationContext` whose basis is that of session `b`: an intent that violates an
implication accepted in `b` is refused; any other one, with a new name, is stored in the context, whatever other
sessions on this context have accepted. -/
theorem C157_add_object {w : E2W α β} {e c b s : ℕ} {bg : List (Imp β)} {ctx : Ctx α β}
    (he : w.ecs[e]? = some (c, some b)) (hb : w.sessions[b]? = some (s, bg)) (hc : w.ctxs[c]? = some ctx)
    (h : ctx.WFw) (hne : ctx.objects ≠ []) {o : α} (ho : o ∉ ctx.objects) (B : Finset β) :
    ((∃ i ∈ bg, i.premise ⊆ B ∧ ¬ i.conclusion ⊆ B) → w.addObject e o B = (w, some .illegalContextModification)) ∧
    ((∀ i ∈ bg, i.premise ⊆ B → i.conclusion ⊆ B) → ∃ w' ctx', w.addObject e o B = (w', none) ∧
      w'.sessions = w.sessions ∧ w'.ctxs[c]? = some ctx' ∧ ctx'.objects = ctx.objects ++ [o] ∧
      ctx'.attributes = ctx.attributes ∧
      ∀ g m, ctx'.Inc g m ↔ (g = o ∧ m ∈ ctx.attributes ∧ m ∈ B) ∨ (g ≠ o ∧ ctx.Inc g m)) := by
  refine ⟨fun ⟨i, hi, h1, h2⟩ => ?_, fun hall => ?_⟩
  · simp only [addObject, he, hb, hc]
    rw [if_neg]
    intro hh
    exact h2 ((Imp.isRespected_iff' i B).1 (List.all_eq_true.1 hh i hi) h1)
  · obtain ⟨ctx', e1, -, e3, e4, e5⟩ := BExp.add_object_ctx h hne ho B
    have hlt : c < w.ctxs.length := (List.getElem?_eq_some_iff.1 hc).1
    refine ⟨{ w with ctxs := w.ctxs.set c ctx' }, ctx', ?_, rfl, by simp only [List.getElem?_set_self hlt], e3, e4, e5⟩
    simp only [addObject, he, hb, hc]
    rw [if_pos (List.all_eq_true.2 fun i hi => (Imp.isRespected_iff' i B).2 (hall i hi)), e1]

/-- Hypotheses of `C157_valid`: two contexts and two explorations; the session of the first one refuses
nothing of what happens to the second context, and has accepted `∅ → {1}` in the end. -/
example :
    let w : E2W (Fin 3) (Fin 2) := run ⟨[E2.wit, E2.wit], [], [], []⟩ [.wrap 0, .wrap 1, .explore 0, .explore 1, .create 1]
    let ops : List (Op (Fin 3) (Fin 2)) := [.reject 1 ⟨∅, {0}⟩ 1 {1}, .accept 1 ⟨∅, {1}⟩, .addObject 3 2 ∅]
    w.expls[0]? = some 2 ∧ w.ecs[2]? = some (0, none) ∧ w.ctxs[0]? = some E2.wit ∧ w.sessions.length = 1 ∧
    OkRun E2.witEnv 1 0 (w.create 0).1 ops ∧
    (run (w.create 0).1 ops).sessions[1]? = some (2, [⟨∅, {1}⟩]) ∧
    ((run (w.create 0).1 ops).ctxs.map fun c => c.objects) = [[0, 1], [0, 2]] := by
  refine ⟨by decide +kernel, by decide +kernel, by decide +kernel, by decide +kernel, ⟨⟨by simp, ?_⟩, ⟨?_, ?_⟩,
    ⟨by simp, ?_⟩, trivial⟩, by decide +kernel, by decide +kernel⟩
  · intro b o B h
    obtain ⟨rfl, -, e, bg, h1, h2⟩ := h
    have h1' : some (2, ([] : List (Imp (Fin 2)))) = some (e, bg) := h1
    cases h1'
    have h2' : some ((0 : ℕ), some 1) = some (0, some b) := h2
    cases h2'
    refine ⟨rfl, ?_⟩
    intro ctx hctx
    have : some E2.wit = some ctx := hctx
    cases this
    decide +kernel
  · intro i hi
    cases hi
    exact ⟨[⟨∅, {1}⟩], by decide +kernel, by simp⟩
  · intro b o B h
    exact h.elim
  · intro b o B h
    have h2 : some ((1 : ℕ), some 0) = some (0, some b) := h.2.2
    cases h2

end E2W
