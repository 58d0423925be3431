import Verif.Linear.Witness
import Verif.Optimum.Witness
/-!
Linearised constraints after `set_values` with values for moments that are not atoms: a distribution that the network can produce is excluded.
-/
namespace Verif.Linear
open Verif.Common Verif.Scenario Verif.Moment Verif.SdpEnd Verif.SdpNames Verif.Generate
open Verif.State (Dict Mon)
open Verif.SdpState (Args SolverOut one)
open Verif.EndToEnd (Input CausalModel WellFormed)
open Verif.Optimum (properMasks_some)

/-- One party with two measurements, three copies of its source. -/
def threeCopies : Input := { twoCopies with levels := [3] }

/-- 1, `A₀` of each copy, and the products of two copies of `A₁`. -/
def threeCols : List (List Nat) := [[], [1], [5], [9], [3, 7], [3, 11], [7, 11]]

/-- `set_values({A₀: 1, A₁A₁': 1}, use_lpi_constraints=True)`. -/
def certainly : SdpState.Call Mon := .setValues [([[1]], some 1), ([[3], [3]], some 1)] true false

/-- The arguments for the solver. -/
def threeArgs : Args := ⟨[(one, 0)], [(some [], 1), (some [[1]], 1), (some [[3], [3]], 1), (some [[1], [1]], 1), (none, 1)], [([[1], [3], [3]], 1, [[3], [3]])], [], [[(some [[1], [3], [3]], 1)], [(some [[3], [3], [3]], 1)]]⟩

def threeIndex : List (Nat × Mon) := [(1, []), (2, [[1]]), (3, [[3], [3]]), (4, [[1], [1]]), (5, [[3], [1, 3]]), (6, [[1], [3], [3]]), (7, [[3], [3], [3]])]

def threeSym : List Nat := [1, 2, 2, 2, 3, 3, 3, 2, 2, 4, 4, 5, 5, 6, 2, 4, 2, 4, 5, 6, 5, 2, 4, 4, 2, 6, 5, 5, 3, 5, 5, 6, 3, 7, 7, 3, 5, 6, 5, 7, 3, 7, 3, 6, 5, 5, 7, 7, 3]

theorem three_setup : ∃ B, Setup threeCopies threeCols (freshChoice threeCopies) letters B ∧ B.index = threeIndex ∧ B.sym = threeSym ∧
    (SdpState.setValues B.env [([[1]], some 1), ([[3], [3]], some 1)] true false (SdpState.init B.env)).2 = none ∧
    SdpState.solverArgs B.env (SdpState.run B.env (fun _ => ⟨"", 0⟩) [certainly]) = some threeArgs := by
  have hs : ((build threeCopies threeCols (freshChoice threeCopies) letters).bind fun B => (indexEqualities threeCopies threeCols B.sym).map fun eqs =>
        (eqs.all fun e => decide (e.1 :: e.2).Nodup) && decide (B.index = threeIndex) && decide (B.sym = threeSym) &&
        decide ((SdpState.setValues B.env [([[1]], some 1), ([[3], [3]], some 1)] true false (SdpState.init B.env)).2 = none) &&
        decide (SdpState.solverArgs B.env (SdpState.run B.env (fun _ => ⟨"", 0⟩) [certainly]) = some threeArgs)) = some true := by decide +kernel
  obtain ⟨B, hB, h⟩ := Option.bind_eq_some_iff.1 hs
  obtain ⟨eqs, he, h⟩ := Option.map_eq_some_iff.1 h
  simp only [Bool.and_eq_true, decide_eq_true_eq] at h
  obtain ⟨⟨⟨⟨h1, h2⟩, h3⟩, h4⟩, h5⟩ := h
  exact ⟨B, ⟨colsOk_of (by decide +kernel) (by decide) (by decide +kernel), by decide +kernel, freshChoice_computed _, hB, equalitiesProper_of (by rw [he]; exact congrArg some h1)⟩, h2, h3, h4, h5⟩

/-- The mask of an index. -/
noncomputable def mask (k : Nat) : SdpSolver.Mat 7 ℝ := fun i j => if threeSym[i.val * 7 + j.val]? = some k then 1 else 0

def threeFlags : SdpSolver.Flags (Option Mon) := ⟨false, false, true, fun _ => none⟩

theorem three_masks {B : Built} (h1 : B.index = threeIndex) (h2 : B.sym = threeSym) : masks 7 B =
    [(some [], mask 1), (some [[1]], mask 2), (some [[3], [3]], mask 3), (some [[1], [1]], mask 4), (some [[3], [1, 3]], mask 5), (some [[1], [3], [3]], mask 6), (some [[3], [3], [3]], mask 7),
      (none, fun _ _ => 0)] := by
  unfold masks
  rw [h1, h2]
  rfl

theorem three_prep {B : Built} (h1 : B.index = threeIndex) (h2 : B.sym = threeSym) : ∃ Q : SdpSolver.Prep (Option Mon) ℝ 7, SdpSolver.prep threeFlags (solverInput 7 B threeArgs) = some Q ∧
    Q.masks = [(some [], mask 1), (some [[1]], mask 2), (some [[3], [3]], fun i j => mask 3 i j + ((1 : Rat) : ℝ) * mask 6 i j), (some [[1], [1]], mask 4), (some [[3], [1, 3]], mask 5),
      (some [[3], [3], [3]], mask 7), (none, fun _ _ => 0)] ∧
    Q.vars = [some [[3], [1, 3]], some [[3], [3], [3]], some [[3], [3]]] ∧
    Q.F0 = SdpSolver.constMat (realRow threeArgs.known) ((masks 7 B).map fun t : Option Mon × SdpSolver.Mat 7 ℝ => (t.1, some t.2)) := by
  have hm := three_masks h1 h2
  have hs : SdpSolver.start threeFlags (solverInput 7 B threeArgs) =
      ⟨[some [[3], [1, 3]], some [[1], [3], [3]], some [[3], [3], [3]]], (masks 7 B).map fun t : Option Mon × SdpSolver.Mat 7 ℝ => (t.1, some t.2), [(some [], ((0 : Rat) : ℝ))], [[(some [[1], [3], [3]], ((1 : Rat) : ℝ))], [(some [[3], [3], [3]], ((1 : Rat) : ℝ))]], []⟩ := by
    unfold SdpSolver.start solverInput
    dsimp only
    rw [hm]
    rfl
  unfold SdpSolver.prep
  rw [hs]
  dsimp only
  rw [if_pos (show threeFlags.process = true from rfl)]
  have e1 : (solverInput 7 B threeArgs).semiknown = [(some [[1], [3], [3]], ((1 : Rat) : ℝ), some [[3], [3]])] := rfl
  have e2 : (!(solverInput 7 B threeArgs).masks.isEmpty) = true := by
    show (!(masks 7 B).isEmpty) = true
    rw [hm]; rfl
  rw [e1, e2]
  simp only [SdpSolver.elimAll, SdpSolver.elimStep, Option.bind_some]
  rw [hm]
  exact ⟨_, rfl, rfl, rfl, rfl⟩

/-- A positive semidefinite matrix whose first two rows agree in the upper left corner has the same entries in these rows. -/
theorem rows_agree {G : SdpSolver.Mat 7 ℝ} (h : SdpSolver.PSD G) (h0 : G 0 0 = 1) (h1 : G 0 1 = 1) (h2 : G 1 1 = 1) : G 0 6 = G 1 6 := by
  have hq : ∀ s : ℝ, 0 ≤ 2 * s * (G 0 6 - G 1 6) + s ^ 2 * G 6 6 := by
    intro s
    have := h.2 fun i => if i = 0 then 1 else if i = 1 then -1 else if i = 6 then s else 0
    have e : SdpSolver.quad G (fun i => if i = 0 then 1 else if i = 1 then -1 else if i = 6 then s else 0) = 2 * s * (G 0 6 - G 1 6) + s ^ 2 * G 6 6 := by
      have s1 := h.1 0 1
      have s2 := h.1 0 6
      have s3 := h.1 1 6
      simp only [SdpSolver.quad, Fin.sum_univ_seven]
      simp
      rw [← s1, ← s2, ← s3, h0, h1, h2]
      ring
    rw [e] at this
    exact this
  by_contra hne
  set d := G 0 6 - G 1 6 with hd
  have hd0 : d ≠ 0 := sub_ne_zero.2 hne
  have hg : 0 ≤ G 6 6 := by
    have h3 := hq 1
    have h4 := hq (-1)
    nlinarith
  have h5 := hq (-d / (1 + G 6 6))
  have h6 : 2 * (-d / (1 + G 6 6)) * d + (-d / (1 + G 6 6)) ^ 2 * G 6 6 = -(d ^ 2 * (2 + G 6 6)) / (1 + G 6 6) ^ 2 := by
    field_simp
    ring
  rw [h6, div_nonneg_iff] at h5
  have h7 : 0 < d ^ 2 := by positivity
  have h8 : 0 < d ^ 2 * (2 + G 6 6) := by positivity
  have h9 : 0 < (1 + G 6 6) ^ 2 := by positivity
  rcases h5 with h | h <;> linarith

/-- The party always answers 0. -/
noncomputable def sureModel : CausalModel threeCopies.D threeCopies.outcomes threeCopies.priv Unit ℝ where
  source := fun _ _ => 1
  latent := fun _ _ => ()
  response := fun _ _ _ _ a => if a = 0 then 1 else 0
  source_nonneg := fun _ _ => by norm_num
  source_sum := fun _ => by simp
  latent_local := fun _ _ _ _ => rfl
  response_nonneg := by
    intro n x o l a
    split_ifs <;> norm_num
  response_sum := by
    intro p hp x _ o _ l
    have hp : p < 1 := hp
    obtain rfl : p = 0 := by omega
    show (List.map _ (List.range 2)).sum = _
    simp [List.range_succ]
  response_local := fun _ _ _ _ _ _ _ _ _ => rfl

/-- The distribution of `sureModel`. -/
def sureP : List Nat → Rat := fun t => if t.getD 0 0 = 0 then 1 else 0

theorem sure_generates : sureModel.Generates fun t => ((sureP t : Rat) : ℝ) := by
  intro a ha x hx
  have ha' : a = [0] ∨ a = [1] := by
    have : ∀ a ∈ ndindex threeCopies.outcomes, a = [0] ∨ a = [1] := by decide
    exact this a ha
  have hx' : x = [0] ∨ x = [1] := by
    have : ∀ a ∈ ndindex threeCopies.priv, a = [0] ∨ a = [1] := by decide
    exact this x hx
  unfold CausalModel.prob EndToEnd.expect
  rw [Fintype.sum_unique]
  rcases ha' with rfl | rfl <;> rcases hx' with rfl | rfl <;> simp [sureModel, sureP, threeCopies, twoCopies]

theorem three_accepted : threeCopies.Accepted where
  outcomes_length := rfl
  priv_length := rfl
  parties := by decide
  outcomes_pos := by decide
  priv_pos := by decide
  acyclic := ⟨fun p => p, by decide +kernel⟩

theorem three_wellFormed : WellFormed threeCopies.D := SdpSearch.coin_wellFormed

theorem three_hasSources : HasSources threeCopies.D := SdpSearch.coin_hasSources

/-- The model of the inflated network. -/
noncomputable abbrev sure := inflated three_accepted three_wellFormed three_hasSources sureModel

theorem sure_atom {a : Nat} (ha : a = 1 ∨ a = 3) : sure.val [a] = 1 := by
  have hR : sure.Realises sureP := classical_realises three_accepted _ _ (EndToEnd.toClassical_realises three_accepted three_wellFormed sureModel sure_generates)
  have h : InRange threeCopies [a] ∧ knowable threeCopies [a] = true ∧ atomMarginal threeCopies sureP [a] = some 1 := by
    have h1 : nOps threeCopies = 13 := by decide +kernel
    refine ⟨fun x hx => ?_, ?_⟩
    · obtain rfl := List.mem_singleton.1 hx
      rw [h1]; omega
    · rcases ha with rfl | rfl <;> decide +kernel
  obtain ⟨x, h1, h2⟩ := hR [a] h.1 (by simp) (by rcases ha with rfl | rfl <;> simp) (by simp) h.2.1
  rw [h.2.2] at h1
  rw [show sure.val [a] = _ from h2, ← Option.some.inj h1]
  simp

/-- **C70 is false for values of other moments.** For a deterministic party the values `A₀ = 1` and `A₁A₁' = 1` (on two copies) are true. `set_values` with these two values and
`use_lpi_constraints=True` raises no exception, but the program handed to the solver is infeasible: it contains the constraint that `A₀A₁'A₁''` is 1 times `A₁A₁'`, which has a value and
is treated as a free variable on top of its value. -/
theorem C70_false_for_other_values : ∃ B, Setup threeCopies threeCols (freshChoice threeCopies) letters B ∧ CallTrue B.env sure.moment certainly ∧
    SdpState.Ok B.env (fun _ => ⟨"", 0⟩) [certainly] ∧ SdpState.solverArgs B.env (SdpState.run B.env (fun _ => ⟨"", 0⟩) [certainly]) = some threeArgs ∧
    ∃ Q : SdpSolver.Prep (Option Mon) ℝ 7, SdpSolver.prep threeFlags (solverInput 7 B threeArgs) = some Q ∧ ∀ x G, ¬ Q.Primal false x G := by
  obtain ⟨B, hV, h1, h2, h3, h4⟩ := three_setup
  have ha1 : sure.val [1] = 1 := sure_atom (.inl rfl)
  have ha3 : sure.val [3] = 1 := sure_atom (.inr rfl)
  refine ⟨B, hV, ⟨?_, fun _ => ?_⟩, ?_, h4, ?_⟩
  · intro t ht x hx
    simp only [List.mem_cons, List.not_mem_nil, or_false] at ht
    rcases ht with rfl | rfl <;> (obtain rfl := Option.some.inj hx; simp [ValueTrue, InflatedModel.moment, ha1, ha3])
  · intro m hm f hf hk c hc hle
    exfalso
    have henv : B.env.dagger = (freshChoice threeCopies).dagger := by obtain ⟨_, _, _, _, _, _, _, _, _, _, henv⟩ := build_some hV.built; rw [henv]
    have h : sure.moment f = 1 := by
      refine List.prod_eq_one fun x hx => ?_
      obtain ⟨a, ha, rfl⟩ := List.mem_map.1 hx
      obtain ⟨b, x, hb, hab⟩ := hk a ha
      have hb : b = [1] := by
        have : b = [1] ∧ x = 1 := by simpa using hb
        exact this.1
      rw [hb] at hab
      rcases hab with rfl | rfl
      · exact ha1
      · rw [henv, dagger_value _ hV.computed, ha1]; simp
    rw [h] at hc
    have : c = 1 := by exact_mod_cast hc.symm
    rw [this] at hle
    norm_num at hle
  · intro g1 c g2 e
    have : g1 = [] ∧ c = certainly := by
      cases g1 with
      | nil => exact ⟨rfl, by simpa using (List.cons.inj e).1.symm⟩
      | cons d t => simp at e
    obtain ⟨rfl, rfl⟩ := this
    exact h3
  · obtain ⟨Q, hQ, hm, hv, hF⟩ := three_prep h1 h2
    refine ⟨Q, hQ, fun x G hp => ?_⟩
    have hgam : Q.gamma x 0 0 = 1 ∧ Q.gamma x 0 1 = 1 ∧ Q.gamma x 1 1 = 1 ∧ Q.gamma x 0 6 = 1 + x (some [[3], [3]]) ∧ Q.gamma x 1 6 = x (some [[3], [3]]) := by
      unfold SdpSolver.Prep.gamma
      rw [hm, hv, hF, three_masks h1 h2]
      unfold SdpSolver.constMat
      refine ⟨?_, ?_, ?_, ?_, ?_⟩ <;> simp [realRow, threeArgs, SdpSolver.has, State.get_cons, SdpSolver.entry, mask, threeSym]
    have r := rows_agree hp.psd ((hp.upper 0 0 (by decide)).trans hgam.1) ((hp.upper 0 1 (by decide)).trans hgam.2.1) ((hp.upper 1 1 (by decide)).trans hgam.2.2.1)
    rw [hp.upper 0 6 (by decide), hp.upper 1 6 (by decide), hgam.2.2.2.1, hgam.2.2.2.2] at r
    linarith

end Verif.Linear
