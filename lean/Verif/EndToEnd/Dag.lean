import Verif.EndToEnd.Props
import Verif.Scenario.DagLemmas
/-!
Causal models of the graph the user draws, stated with its nodes and arrows only, and their translation into models of the tables that the code computes from the graph.
-/
namespace Verif.EndToEnd
open Verif.Common Verif.Scenario Verif.Orbits Verif.Moment Verif.State Verif.CollinsGisin
open Verif.LpSolver (Flags buildTask)
open ClassicalModel (Capacity)

/-- There is an arrow from `u` to `v` in the `dag` dictionary. -/
def Edge (D : DagInput) (u v : Nat) : Prop := ∃ cs, (u, cs) ∈ D.dag ∧ v ∈ cs

/-- What the code requires of a graph (InflationProblem.py 95-135, 207-262): a dictionary has every key once, party names are different, parties point to parties, intermediate
latents to parties, and all other nodes to parties and intermediate latents. -/
structure WellFormed (D : DagInput) : Prop where
  keys : (D.dag.map Prod.fst).Nodup
  names : D.names.Nodup
  latents : ∀ n ∈ D.nonclassicalLatents ++ D.classicalLatents, n ∉ D.names
  party : ∀ u v, Edge D u v → u ∈ D.names → v ∈ D.names
  latent : ∀ u v, Edge D u v → u ∈ D.nonclassicalLatents ++ D.classicalLatents → v ∈ D.names
  source : ∀ u v, Edge D u v → v ∈ D.names ∨ v ∈ D.nonclassicalLatents ++ D.classicalLatents

/-- A classical causal model of the graph. Every source (a node with children that is neither a party nor an intermediate latent) emits a random value. An intermediate latent
is a function of the values of its parents (local randomness can be supplied by a parent). A party with own setting `x` answers with a probability that depends on the outcomes
of the parties and the values of the other nodes that point to it. Nodes are referred to by name; `none` is the value of a node that has none. -/
structure CausalModel (D : DagInput) (outcomes priv : List Nat) (Λ F : Type) [Fintype Λ] [Field F] [LinearOrder F] where
  source : Nat → Λ → F
  latent : Nat → (Nat → Option Λ) → Λ
  response : (node own : Nat) → (outcome : Nat → Nat) → (value : Nat → Option Λ) → Nat → F
  source_nonneg : ∀ u v, 0 ≤ source u v
  source_sum : ∀ u, ∑ v, source u v = 1
  latent_local : ∀ n l m, (∀ u, Edge D u n → l u = m u) → latent n l = latent n m
  response_nonneg : ∀ n x o l a, 0 ≤ response n x o l a
  response_sum : ∀ p < D.names.length, ∀ x < priv.getD p 0, ∀ o : Nat → Nat, (∀ q < D.names.length, Edge D (D.names.getD q 0) (D.names.getD p 0) → o (D.names.getD q 0) < outcomes.getD q 0) →
    ∀ l, ((List.range (outcomes.getD p 0)).map fun a => response (D.names.getD p 0) x o l a).sum = 1
  response_local : ∀ n x o o' l m a, (∀ u, u ∈ D.names → Edge D u n → o u = o' u) → (∀ u, u ∉ D.names → Edge D u n → l u = m u) → response n x o l a = response n x o' m a

namespace CausalModel
variable {D : DagInput} {outcomes priv : List Nat} {Λ F : Type} [Fintype Λ] [Field F] [LinearOrder F] (M : CausalModel D outcomes priv Λ F)

/-- The values of the sources. -/
def sourceValue (l : Fin D.sources.length → Λ) (u : Nat) : Option Λ := if h : D.sources.idxOf u < D.sources.length then some (l ⟨_, h⟩) else none

/-- The values of the sources and of the intermediate latents. -/
def nodeValue (l : Fin D.sources.length → Λ) (u : Nat) : Option Λ :=
  if u ∈ D.nonclassicalLatents ++ D.classicalLatents then some (M.latent u (sourceValue l)) else sourceValue l u

/-- The probability that the parties obtain the outcomes `a` (in the order of the names) for the own settings `x`. -/
def prob (a x : Nat → Nat) : F :=
  expect (fun s : Fin D.sources.length => M.source D.sources[s]) fun l =>
    ((List.range D.names.length).map fun p => M.response (D.names.getD p 0) (x p) (fun u => a (D.names.idxOf u)) (M.nodeValue l) (a p)).prod

/-- The distribution array is that of the model. -/
def Generates (P : List Nat → F) : Prop :=
  ∀ a ∈ ndindex outcomes, ∀ x ∈ ndindex priv, P (a ++ x) = M.prob (fun p => a.getD p 0) (fun p => x.getD p 0)

end CausalModel

variable {I : Input} {Λ F : Type} [Fintype Λ] [Field F] [LinearOrder F]

theorem mem_children {D : DagInput} (h : WellFormed D) (u v : Nat) : v ∈ D.children u ↔ Edge D u v := by
  unfold DagInput.children Edge
  have key : ∀ l : List (Nat × List Nat), (l.map Prod.fst).Nodup → (v ∈ (l.lookup u).getD [] ↔ ∃ cs, (u, cs) ∈ l ∧ v ∈ cs) := by
    intro l
    induction l with
    | nil => simp
    | cons t l ih =>
      obtain ⟨k, cs⟩ := t
      intro hn
      simp only [List.map_cons, List.nodup_cons] at hn
      rw [List.lookup_cons]
      by_cases e : u = k
      · subst e
        simp only [beq_self_eq_true, Option.getD_some, List.mem_cons, Prod.mk.injEq, true_and]
        constructor
        · intro hv; exact ⟨cs, .inl rfl, hv⟩
        · rintro ⟨cs', rfl | hcs, hv⟩
          · exact hv
          · exact absurd (List.mem_map.2 ⟨_, hcs, rfl⟩) hn.1
      · have : (u == k) = false := by simpa using e
        rw [this]
        simp only [List.mem_cons, Prod.mk.injEq, e, false_and, false_or]
        exact ih hn.2
  exact key _ h.keys

/-- The sources computed by the code are the keys of the graph that are neither parties nor intermediate latents, each once. -/
theorem C52_sources_table {D : DagInput} (h : WellFormed D) :
    D.sources.Nodup ∧ ∀ u, u ∈ D.sources ↔ (∃ cs, (u, cs) ∈ D.dag) ∧ u ∉ D.names ∧ u ∉ D.nonclassicalLatents ++ D.classicalLatents := by
  refine ⟨h.keys.filter _, fun u => ?_⟩
  unfold DagInput.sources
  rw [List.mem_filter, List.mem_map]
  simp only [Bool.and_eq_true, Bool.not_eq_true', Bool.or_eq_false_iff, List.contains_eq_mem, decide_eq_false_iff_not, List.mem_append, not_or, Prod.exists, exists_and_right,
    exists_eq_right]

/-- The table of parents computed by the code lists the parties with an arrow to the party. -/
theorem C52_parents_table (h : WellFormed I.D) {p q : Nat} (hq : q < I.D.names.length) :
    q ∈ I.parents p ↔ Edge I.D (I.D.names.getD q 0) (I.D.names.getD p 0) := by
  unfold Input.parents Input.hasChildren Input.nameOf
  rw [List.mem_filter, List.mem_range, Bool.and_eq_true, List.contains_iff_mem, List.contains_iff_mem, mem_children h]
  constructor
  · rintro ⟨_, _, h3⟩; exact h3
  · rintro h3
    refine ⟨hq, ?_, h3⟩
    obtain ⟨cs, hcs, _⟩ := h3
    exact List.mem_map.2 ⟨_, hcs, rfl⟩

theorem getD_mem {l : List Nat} {p : Nat} (hp : p < l.length) : l.getD p 0 ∈ l := by
  rw [List.getD_eq_getElem _ _ hp]; exact List.getElem_mem _

theorem idxOf_getD {l : List Nat} (hn : l.Nodup) {p : Nat} (hp : p < l.length) : l.idxOf (l.getD p 0) = p := by
  rw [List.getD_eq_getElem _ _ hp]; exact hn.idxOf_getElem p hp

/-- The hypergraph computed by the code connects a source to the parties it reaches by an arrow or through an intermediate latent. -/
theorem C52_hypergraph_table (h : WellFormed I.D) {s p : Nat} (hp : p < I.D.names.length) :
    I.scenario.hyp s p = true ↔ Edge I.D (I.D.sources.getD s 0) (I.D.names.getD p 0) ∨
      ∃ u, u ∉ I.D.names ∧ Edge I.D (I.D.sources.getD s 0) u ∧ Edge I.D u (I.D.names.getD p 0) := by
  show (I.D.hypRow (I.D.sources.getD s 0) p == 1) = true ↔ _
  rw [beq_iff_eq, I.D.hypRow_eq]
  have hidx : ∀ c, c ∈ I.D.names → (p = I.D.partyIdx c ↔ c = I.D.names.getD p 0) := by
    intro c hc
    constructor
    · intro e
      unfold DagInput.partyIdx at e
      rw [e, List.getD_eq_getElem _ _ (List.idxOf_lt_length_of_mem hc)]
      exact (List.getElem_idxOf _).symm
    · rintro rfl
      exact (idxOf_getD h.names hp).symm
  have hc : ((∃ c ∈ I.D.children (I.D.sources.getD s 0), c ∈ I.D.names ∧ p = I.D.partyIdx c) ∨
      (∃ l ∈ I.D.children (I.D.sources.getD s 0), l ∉ I.D.names ∧ ∃ d ∈ I.D.children l, p = I.D.partyIdx d)) ↔
      (Edge I.D (I.D.sources.getD s 0) (I.D.names.getD p 0) ∨ ∃ u, u ∉ I.D.names ∧ Edge I.D (I.D.sources.getD s 0) u ∧ Edge I.D u (I.D.names.getD p 0)) := by
    constructor
    · rintro (⟨c, h1, h2, h3⟩ | ⟨l, h1, h2, d, h3, h4⟩)
      · rw [(hidx c h2).1 h3, mem_children h] at h1
        exact .inl h1
      · rw [mem_children h] at h1 h3
        have hl : l ∈ I.D.nonclassicalLatents ++ I.D.classicalLatents := (h.source _ _ h1).resolve_left h2
        have hd := h.latent _ _ h3 hl
        rw [(hidx d hd).1 h4] at h3
        exact .inr ⟨l, h2, h1, h3⟩
    · rintro (h1 | ⟨u, h1, h2, h3⟩)
      · exact .inl ⟨_, (mem_children h _ _).2 h1, getD_mem hp, (hidx _ (getD_mem hp)).2 rfl⟩
      · exact .inr ⟨u, (mem_children h _ _).2 h2, h1, _, (mem_children h _ _).2 h3, (hidx _ (getD_mem hp)).2 rfl⟩
  split
  · rename_i h1; exact ⟨fun _ => hc.1 h1, fun _ => rfl⟩
  · rename_i h1; exact ⟨fun e => absurd e (by omega), fun e => absurd (hc.2 e) h1⟩

theorem sourceValue_getElem {D : DagInput} (h : WellFormed D) {u : Nat} {l m : Fin D.sources.length → Λ}
    (hlm : ∀ s : Fin D.sources.length, D.sources[s] = u → l s = m s) : CausalModel.sourceValue l u = CausalModel.sourceValue m u := by
  unfold CausalModel.sourceValue
  split
  · rename_i h1
    rw [hlm ⟨_, h1⟩ (List.getElem_idxOf h1)]
  · rfl

/-- The same model with the parties, sources and parents numbered as in the code's tables. -/
def CausalModel.toClassical (h : WellFormed I.D) (M : CausalModel I.D I.outcomes I.priv Λ F) : ClassicalModel I.scenario I.observed Λ F where
  source := fun s => M.source (I.D.sources[(s : Fin I.D.sources.length)])
  response := fun p x y a l => M.response (I.D.names.getD p 0) x (fun u => y.getD ((I.parents p).idxOf (I.D.names.idxOf u)) 0)
    (if p < I.D.names.length then M.nodeValue (l : Fin I.D.sources.length → Λ) else fun _ => none) a
  source_nonneg := fun _ v => M.source_nonneg _ v
  source_sum := fun _ => M.source_sum _
  response_nonneg := fun _ _ _ _ _ => M.response_nonneg _ _ _ _ _
  response_sum := by
    intro p hp x hx y hy l
    refine M.response_sum p hp x hx _ ?_ _
    intro q hq he
    rw [idxOf_getD h.names hq]
    have hmem : q ∈ I.parents p := (C52_parents_table h hq).2 he
    rw [mem_ndindex] at hy
    obtain ⟨h1, h2⟩ := hy
    rw [List.length_map] at h1
    have hi : (I.parents p).idxOf q < (I.parents p).length := List.idxOf_lt_length_of_mem hmem
    have hi' : (I.parents p).idxOf q < y.length := by rw [h1]; exact hi
    have h3 : y[(I.parents p).idxOf q] < ((I.parents p).map I.scenario.outcomes)[(I.parents p).idxOf q]'(by simpa using hi) := h2 _ (by rw [List.length_map]; exact hi) hi'
    rw [List.getElem_map, List.getElem_idxOf] at h3
    rw [List.getD_eq_getElem _ _ hi']
    exact h3
  response_local := by
    intro p x y a l m hlm
    apply M.response_local
    · intro u _ _; rfl
    · intro u hu he
      by_cases hp : p < I.D.names.length
      · rw [if_pos hp, if_pos hp]
        unfold CausalModel.nodeValue
        split
        · rename_i hl
          congr 1
          apply M.latent_local
          intro w hw
          apply sourceValue_getElem h
          intro s hs
          apply hlm s
          refine (C52_hypergraph_table h hp).2 (.inr ⟨u, hu, ?_, he⟩)
          rw [List.getD_eq_getElem _ _ s.2]
          exact hs ▸ hw
        · apply sourceValue_getElem h
          intro s hs
          apply hlm s
          refine (C52_hypergraph_table h hp).2 (.inl ?_)
          rw [List.getD_eq_getElem _ _ s.2]
          exact hs ▸ he
      · rw [if_neg hp, if_neg hp]

/-- Both models give the same distribution. -/
theorem toClassical_prob (h : WellFormed I.D) (M : CausalModel I.D I.outcomes I.priv Λ F) (a x : Nat → Nat) : (M.toClassical h).prob a x = M.prob a x := by
  unfold ClassicalModel.prob CausalModel.prob
  apply expect_congr
  intro l
  congr 1
  apply List.map_congr_left
  intro p hp
  have hp : p < I.D.names.length := List.mem_range.1 hp
  show M.response (I.D.names.getD p 0) (x p) (fun u => ((I.parents p).map a).getD ((I.parents p).idxOf (I.D.names.idxOf u)) 0) (if p < I.D.names.length then M.nodeValue l else fun _ => none) (a p) = _
  rw [if_pos hp]
  apply M.response_local
  · intro u hu he
    have hq : I.D.names.idxOf u < I.D.names.length := List.idxOf_lt_length_of_mem hu
    have hgu : I.D.names.getD (I.D.names.idxOf u) 0 = u := by rw [List.getD_eq_getElem _ _ hq]; exact List.getElem_idxOf hq
    have hmem : I.D.names.idxOf u ∈ I.parents p := (C52_parents_table h hq).2 (by rw [hgu]; exact he)
    have hi := List.idxOf_lt_length_of_mem hmem
    rw [List.getD_eq_getElem _ _ (by simpa using hi), List.getElem_map, List.getElem_idxOf]
  · intro _ _ _; rfl

theorem toClassical_realises (hI : I.Accepted) (h : WellFormed I.D) (M : CausalModel I.D I.outcomes I.priv Λ F) {P : List Nat → Rat} (hP : M.Generates fun t => ((P t : Rat) : F)) :
    I.Realises (M.toClassical h) P := by
  intro a ha x hx
  rw [toClassical_prob]
  have e1 : (List.range I.scenario.nParties).map I.scenario.outcomes = I.outcomes := hI.outs_eq
  have e2 : (List.range I.scenario.nParties).map I.observed.priv = I.priv := hI.ins_eq
  rw [e1] at ha
  rw [e2] at hx
  exact hP a ha x hx

theorem setValues_lower {K : Type} (E : Env K) (hE : E.supports = false) (v : List (K × Option Rat)) (lpi o : Bool) (s : LpState) : (setValues E v lpi o s).lower = s.lower := by
  unfold setValues updateValues cleanup
  simp only [hE, Bool.false_eq_true, if_false]
  split
  · rfl
  · split <;> rfl

theorem setValues_upper {K : Type} (E : Env K) (v : List (K × Option Rat)) (lpi o : Bool) (s : LpState) : (setValues E v lpi o s).upper = s.upper := by
  unfold setValues updateValues cleanup
  dsimp only
  split
  · split <;> rfl
  · split
    · split <;> rfl
    · split <;> rfl

/-- After construction and one `set_values` there are no bounds and no objective. -/
theorem fresh_solverArgs {name : Atom → String} {E : Env Mon} (hE : I.lpEnv name = some E) {solver : Args → SolverOut} {vals : List (Mon × Option Rat)} {lpi o : Bool} {a : Args}
    (ha : solverArgs E (run E solver [.setValues vals lpi o]) = some a) : a.objective = [] ∧ a.lower = [] ∧ a.upper = [] := by
  have hsup : E.supports = false := by
    obtain ⟨_, _, _, _, _, _, rfl⟩ := lpEnv_some hE
    rfl
  obtain ⟨_, _, _, _, _, _, h4, _, h6, h7, _⟩ := solverArgs_some E _ a ha
  have e1 : (run E solver [Call.setValues vals lpi o]).objective = [] := by
    show (setValues E vals lpi o (init E)).objective = []
    rw [setValues_objective]; unfold init; rw [setValues_objective]; rfl
  have e2 : (run E solver [Call.setValues vals lpi o]).lower = [] := by
    show (setValues E vals lpi o (init E)).lower = []
    rw [setValues_lower E hsup]; unfold init; rw [setValues_lower E hsup]; rfl
  have e3 : (run E solver [Call.setValues vals lpi o]).upper = [] := by
    show (setValues E vals lpi o (init E)).upper = []
    rw [setValues_upper E]; unfold init; rw [setValues_upper E]; rfl
  rw [e1] at h4; rw [e2] at h6; rw [e3] at h7
  exact ⟨(Option.some.inj h4).symm, (Option.some.inj h6).symm, (Option.some.inj h7).symm⟩

variable [IsStrictOrderedRing F]

/-- **C52 for the graph the user draws.** If a classical causal model of the graph generates the distribution `P`, then `set_distribution(P)` succeeds and the problem then given
to the solver has a solution, for every inflation: the primal problem is feasible and the dual is bounded below by 0 (no objective has been set). -/
theorem C52_dag_model_accepted (hI : I.Accepted) (hD : WellFormed I.D) (M : CausalModel I.D I.outcomes I.priv Λ F) {P : List Nat → Rat}
    (hP : M.Generates fun t => ((P t : Rat) : F)) (hcap : ∀ v ∈ I.columns, Capacity I.scenario (flatnonzero v)) {name : Atom → String} {E : Env Mon} (hE : I.lpEnv name = some E)
    (solver : Args → SolverOut) (lpi shared : Bool) (hl : lpi = true → NoTiny E (M.toClassical hD).event) :
    ∃ c, I.setDistribution P lpi shared = some c ∧ ∀ a, solverArgs E (run E solver [c]) = some a → ∀ f : Flags, f.relaxKnown = false → f.relaxIneq = false →
      ∀ t : LpSolver.Task F, buildTask f (toSolver I.columns.length a) = some t →
        (f.dual = false → ∃ x, t.Feasible x) ∧ (f.dual = true → ∀ y, t.Feasible y → 0 ≤ t.value y) := by
  have hR := toClassical_realises hI hD M hP
  obtain ⟨vals, hc, _⟩ := C52_distribution_accepted hI (M.toClassical hD) hR lpi shared
  have ht : ∀ c ∈ [Call.setValues vals lpi shared], Truthful I (M.toClassical hD) E c := by
    intro c hc'
    rw [List.mem_singleton] at hc'
    subst hc'
    exact .distribution hR hl hc
  have hsup : E.supports = false := by
    obtain ⟨_, _, _, _, _, _, rfl⟩ := lpEnv_some hE
    rfl
  have hobj : (run E solver [Call.setValues vals lpi shared]).objective = [] := by
    show (setValues E vals lpi shared (init E)).objective = []
    rw [setValues_objective]
    unfold init
    rw [setValues_objective]
    rfl
  refine ⟨_, hc, ?_⟩
  intro a ha f hrk hri t hb
  refine ⟨fun hd => ?_, fun hd y hy => ?_⟩
  · obtain ⟨x, hx, _⟩ := C52_primal_is_feasible hI _ hcap hE solver _ ht ha hd hrk hri hb
    exact ⟨x, hx⟩
  · have := C52_dual_is_bounded hI _ hcap hE solver _ ht ha ?_ hd hrk hri hb y hy
    · rw [hobj] at this
      simpa [dictValF] using this
    · rw [(fresh_solverArgs hE ha).2.1]
      simp

end Verif.EndToEnd
