import Verif.SdpEnd.QuantumSound
import Verif.SdpEnd.Witness
/-!
The default lower bounds make the semidefinite program report wrong bounds: a quantum model of the inflated network whose value of the objective lies above a bound certified by the dual
problem. The model is the one of C46: one party measuring two quantum sources, the first one with two copies.
-/
namespace Verif.SdpEnd
open Verif.Common Verif.Scenario Verif.Components Verif.Moment Verif.MomentMatrix Verif.State Verif.EndToEnd Verif.SdpRepr Verif.SymMM Verif.Canon Verif.Positivity Verif.Normalization
open Verif.Symmetry (img sdpSymmetries)

/-- One party (node 0) with two settings and two outcomes, measuring the quantum sources 10 (two copies) and 11 (one copy). -/
def hermInput : Input := { D := hermDag, outcomes := [2], priv := [2], levels := [2, 1], allOutcomes := false }

theorem herm_nOps : nOps hermInput = 9 := by decide +kernel
theorem herm_symmetries : symmetries hermInput = sdpSymmetries hermScenario := by decide +kernel
theorem herm_notcomm (a b : Nat) (ha : a < 9) (hb : b < 9) : notcomm hermInput a b = padMat (hermScenario.notcomm hermDag.tbl true) a b := by
  have : ∀ a ∈ List.range 9, ∀ b ∈ List.range 9, notcomm hermInput a b = padMat (hermScenario.notcomm hermDag.tbl true) a b := by decide +kernel
  exact this a (List.mem_range.2 ha) b (List.mem_range.2 hb)
theorem herm_orthomat (a b : Nat) (ha : a < 9) (hb : b < 9) : orthomat hermInput a b = hermScenario.orthomat a b := by
  have : ∀ a ∈ List.range 9, ∀ b ∈ List.range 9, orthomat hermInput a b = hermScenario.orthomat a b := by decide +kernel
  exact this a (List.mem_range.2 ha) b (List.mem_range.2 hb)

theorem herm_rho_zero : hermRho 0 = 0 := by
  ext i j
  have : hermScenario.sdpLexorder[0]? = some (zeroOp 2) := by decide
  simp [hermRho, opZ, this]

/-- The state |000⟩ as a linear functional. -/
noncomputable def hermState : Matrix Q3 Q3 ℝ →ₗ[ℝ] ℂ where
  toFun X := ((X (0, 0, 0) (0, 0, 0) : ℝ) : ℂ)
  map_add' X Y := by simp
  map_smul' c X := by simp

theorem herm_op_zero {w : List Nat} (h : 0 ∈ w) : op hermRho w = 0 := by
  unfold op
  exact List.prod_eq_zero (List.mem_map.2 ⟨0, h, herm_rho_zero⟩)

/-- All operators act on the only copy of the second source, so only words of which one is trivial are independent. -/
theorem herm_share : ∀ a ∈ (List.range 9).tail, ∀ b ∈ (List.range 9).tail, ∃ x y, hermInput.scenario.sdpLexorder[a]? = some x ∧ hermInput.scenario.sdpLexorder[b]? = some y ∧
    x.copies[1]? = some 1 ∧ y.copies[1]? = some 1 := by
  have h : ∀ a ∈ (List.range 9).tail, (hermInput.scenario.sdpLexorder[a]?.map fun x => x.copies[1]?) = some (some 1) := by decide +kernel
  intro a ha b hb
  obtain ⟨x, hx, hx'⟩ := Option.map_eq_some_iff.1 (h a ha)
  obtain ⟨y, hy, hy'⟩ := Option.map_eq_some_iff.1 (h b hb)
  exact ⟨x, y, hx, hy, hx', hy'⟩

/-- The quantum model. -/
noncomputable def hermModel : InflatedModel hermInput (Matrix Q3 Q3 ℝ) where
  ρ := hermRho
  φ := hermState
  operators := by
    refine ⟨herm_projectors, herm_rho_zero, ?_, ?_⟩
    · intro a b ha hb h
      rw [herm_nOps] at ha hb
      exact herm_comm a b (by rw [← herm_notcomm a b ha hb]; exact h)
    · intro a b ha hb h
      rw [herm_nOps] at ha hb
      exact herm_ortho a b (by rw [← herm_orthomat a b ha hb]; exact h)
  complete := by
    intro g hg
    have : scenarioGroups hermInput.scenario = [1, 3, 5, 7].map fun n => [n, n + 1] := by decide +kernel
    rw [this] at hg
    obtain ⟨n, hn, rfl⟩ := List.mem_map.1 hg
    simpa using herm_complete n hn
  unit := by simp [hermState]
  hermitian := by
    intro x
    simp [hermState, Matrix.star_apply]
  positive := by
    intro x
    have := herm_positive x
    simpa [hermState, hermPhi] using this
  symmetric := by
    intro r hr w hw
    rw [herm_symmetries] at hr
    have := herm_symmetric r hr w
    have e : (w.map (img r)) = w.map fun n => r.getD n n := by
      apply List.map_congr_left
      intro x hx
      have hx := hw x hx
      rw [herm_nOps] at hx
      rw [hermSyms] at hr
      simp only [List.mem_cons, List.not_mem_nil, or_false] at hr
      unfold img
      have key : ∀ r ∈ [[0, 1, 2, 3, 4, 5, 6, 7, 8], [0, 5, 6, 7, 8, 1, 2, 3, 4]], ∀ x ∈ List.range 9, img r x = r.getD x x := by decide +kernel
      exact key r (by simpa using hr) x (List.mem_range.2 hx)
    rw [e]
    unfold op
    exact congrArg (fun t : ℝ => (t : ℂ)) this
  independent := by
    intro u v hu hv h
    by_cases h0 : 0 ∈ u
    · rw [herm_op_zero h0, herm_op_zero (List.mem_append_left v h0)]; simp
    · by_cases h0' : 0 ∈ v
      · rw [herm_op_zero h0', herm_op_zero (List.mem_append_right u h0')]; simp
      · rcases u with _ | ⟨a, u⟩
        · simp [op, hermState]
        · rcases v with _ | ⟨b, v⟩
          · simp [op, hermState]
          · exfalso
            have hmem : ∀ c, c < 9 → c ≠ 0 → c ∈ (List.range 9).tail := by decide
            obtain ⟨x, y, hx, hy, hx', hy'⟩ := herm_share a (hmem a (by have := hu a (by simp); rwa [herm_nOps] at this) (by rintro rfl; simp at h0)) b
              (hmem b (by have := hv b (by simp); rwa [herm_nOps] at this) (by rintro rfl; simp at h0'))
            exact h a (by simp) b (by simp) x y hx hy ⟨1, 1, by decide, hx', hy'⟩

/-- The generating set: the unit and two products. -/
def hermCols : List (List Nat) := [[], [7, 1], [3, 5]]

/-- Minimise `⟨A¹(0|0) A²(0|1) A¹(0|1) A²(0|0)⟩`. -/
def hermCall : SdpState.Call Mon := .setObjective (some [([[1, 7, 3, 5]], 1)]) false

def hermArgs : SdpState.Args := ⟨[([[1, 7, 3, 5]], -1), ([], 0)], [(some [], 1), (none, 1)], [], [], [[(some [[1, 7, 1]], 1)], [(some [[1, 7, 3, 5]], 1)]]⟩

theorem herm_setup : ∃ B, Setup hermInput hermCols (freshChoice hermInput) letters B ∧
    SdpState.Ok B.env (fun _ => ⟨"feasible", 0⟩) [hermCall] ∧ SdpState.solverArgs B.env (SdpState.run B.env (fun _ => ⟨"feasible", 0⟩) [hermCall]) = some hermArgs ∧
    (SdpState.run B.env (fun _ => ⟨"feasible", 0⟩) [hermCall]).objective = [([[1, 7, 3, 5]], -1), ([], 0)] ∧
    B.index = [(1, []), (2, [[1, 7]]), (3, [[1, 7, 1]]), (4, [[1, 7, 3, 5]])] := by
  have hs : ((build hermInput hermCols (freshChoice hermInput) letters).bind fun B => (indexEqualities hermInput hermCols B.sym).bind fun eqs =>
      (SdpState.solverArgs B.env (SdpState.run B.env (fun _ => ⟨"feasible", 0⟩) [hermCall])).map fun a =>
        (eqs.all fun e => decide (e.1 :: e.2).Nodup) && (SdpState.call B.env (fun _ => ⟨"feasible", 0⟩) (SdpState.init B.env) hermCall).2.isNone &&
        decide (B.index = [(1, []), (2, [[1, 7]]), (3, [[1, 7, 1]]), (4, [[1, 7, 3, 5]])]) &&
        decide ((SdpState.run B.env (fun _ => ⟨"feasible", 0⟩) [hermCall]).objective = [([[1, 7, 3, 5]], -1), ([], 0)]) && decide (a = hermArgs)) = some true := by decide +kernel
  obtain ⟨B, hB, h⟩ := Option.bind_eq_some_iff.1 hs
  obtain ⟨eqs, he, h⟩ := Option.bind_eq_some_iff.1 h
  obtain ⟨a, ha, h⟩ := Option.map_eq_some_iff.1 h
  simp only [Bool.and_eq_true, decide_eq_true_eq] at h
  obtain ⟨⟨⟨⟨h1, hok⟩, h4⟩, hob⟩, h5⟩ := h
  subst h5
  refine ⟨B, ⟨colsOk_of (by decide +kernel) (by decide) (by decide +kernel), by decide +kernel, freshChoice_computed _, hB, equalitiesProper_of (by rw [he]; exact congrArg some h1)⟩,
    ?_, ha, hob, h4⟩
  intro h1 d h2 e
  rcases h1 with _ | ⟨x, h1⟩
  · obtain ⟨rfl, _⟩ := List.cons.inj e
    exact Option.isNone_iff_eq_none.1 hok
  · simp at e

theorem herm_model_value : hermModel.value [[1, 7, 3, 5]] = -3 / 16 := by
  have h := herm_value
  unfold InflatedModel.value InflatedModel.moment
  simp only [List.map_cons, List.map_nil, List.prod_cons, List.prod_nil, mul_one]
  unfold InflatedModel.val
  rw [if_pos (by unfold InRange; rw [herm_nOps]; decide)]
  show ((((op hermRho [1, 7, 3, 5]) (0, 0, 0) (0, 0, 0) : ℝ) : ℂ)).re = _
  rw [Complex.ofReal_re]
  exact h

/-- **C56 is false in general**: there are a problem with one inflated source, a quantum model of the inflated network, and a truthful use of the program (which only asks to minimise a
moment), for which the dual problem has a feasible point that certifies a bound which the model violates (here `⟨…⟩ ≥ 0` although the value in the model is -3/16). -/
theorem C56_false_up_to_symmetry :
    ∃ (B : Built) (a : SdpState.Args), Used hermInput hermCols (freshChoice hermInput) letters B hermModel (fun _ => ⟨"feasible", 0⟩) [hermCall] a ∧
      ∃ T : SdpSolver.Prep (Option Mon) ℝ hermCols.length, SdpSolver.prep ⟨false, false, true, fun _ => none⟩ (solverInput hermCols.length B a) = some T ∧
        ∃ Z mi me, T.Dual false Z mi me ∧ T.dualValue false Z mi me < dictR (SdpState.run B.env (fun _ => ⟨"feasible", 0⟩) [hermCall]).objective hermModel.value := by
  obtain ⟨B, hV, hok, ha, hob, hidx⟩ := herm_setup
  have hsup : B.env.supports = false := by obtain ⟨_, _, _, _, _, _, _, _, _, _, henv⟩ := build_some hV.built; rw [henv]
  have hsep : Separated hermArgs := separated_of_noLpi hsup _ [hermCall] (by intro c hc; rw [List.mem_singleton.1 hc]; trivial) ha
  refine ⟨B, hermArgs, ⟨hV, ?_, hok, ha, hsep⟩, ?_⟩
  · intro c hc
    rw [List.mem_singleton.1 hc]
    exact .direct trivial
  · have hP : ∃ T, SdpSolver.prep ⟨false, false, true, fun _ => none⟩ (solverInput 3 B hermArgs) = some T ∧ T.vars = [some [[1, 7]], some [[1, 7, 1]], some [[1, 7, 3, 5]]] ∧
        T.ineqs = [[(some [[1, 7, 1]], 1)], [(some [[1, 7, 3, 5]], 1)]] ∧ T.eqs = [] ∧ T.known = [(some [], 1), (none, 1)] ∧ T.objective = [(some [[1, 7, 3, 5]], -1), (some [], 0)] := by
      unfold solverInput masks
      rw [hidx]
      refine ⟨_, rfl, rfl, ?_, rfl, ?_, ?_⟩ <;> simp [SdpSolver.start, hermArgs, realRow]
    obtain ⟨T, hT, hv, hi, he, hk, ho⟩ := hP
    have hz : ∀ F : SdpSolver.Mat 3 ℝ, SdpSolver.inner (fun _ _ => (0 : ℝ)) F = 0 := by intro F; simp [SdpSolver.inner]
    have hD : T.Dual false (fun _ _ => 0) (fun i => if i = 1 then 1 else 0) (fun _ => 0) := by
      refine ⟨⟨fun _ _ => rfl, fun v => by simp [SdpSolver.quad]⟩, ?_, ?_, by simp⟩
      · intro i _
        split <;> norm_num
      · intro _ y hy
        rw [hv] at hy
        have hz' : ((Dict.get T.masks y).map (SdpSolver.inner fun _ _ => (0 : ℝ))).getD 0 = 0 := by
          rcases Dict.get T.masks y with _ | F
          · rfl
          · exact hz F
        unfold SdpSolver.Prep.dualLhs
        rw [hz', he, hi, ho]
        simp only [List.mem_cons, List.not_mem_nil, or_false] at hy
        rcases hy with rfl | rfl | rfl <;> simp [SdpSolver.Prep.column, SdpSolver.has, Dict.get, hk]
    have hE : T.dualValue false (fun _ _ => 0) (fun i => if i = 1 then 1 else 0) (fun _ => 0) < 3 / 16 := by
      unfold SdpSolver.Prep.dualValue
      rw [hz, he, hi]
      simp only [SdpSolver.Prep.c0, SdpSolver.Prep.const, hk, ho]
      simp [SdpSolver.has, Dict.get]
    refine ⟨T, hT, _, _, _, hD, ?_⟩
    rw [hob]
    simp only [dictR, List.map_cons, List.map_nil, List.sum_cons, List.sum_nil, herm_model_value]
    refine lt_of_lt_of_eq hE ?_
    norm_num

end Verif.SdpEnd
