import Verif.SdpSolver.Cert
/-
Concrete problems: the hypotheses of the theorems on the SDP solver are met, and the counterexamples.
-/
namespace Verif.SdpSolver
open Verif.State

/-- Names `"lambda"`, `"lambda_"`, … as large numbers. -/
def plainFlags : Flags Nat := ⟨false, false, true, fun k => 1000 + k⟩
def feasFlags : Flags Nat := ⟨false, true, true, fun k => 1000 + k⟩

/-- `Γ = [[v0, v3], [v3, v2]]` with `v0 = 1`, `v3 = v2 / 2`, `v2 ≤ 1`; maximise `v2`. -/
def exIn : Input Nat ℚ 2 where
  masks := [(0, fun i j => if i = 0 ∧ j = 0 then 1 else 0), (3, fun i j => if i = j then 0 else 1), (2, fun i j => if i = 1 ∧ j = 1 then 1 else 0)]
  objective := [(2, 1)]
  known := [(0, 1)]
  semiknown := [(3, 1 / 2, 2)]
  ineqs := [[(0, 1), (2, -1)]]
  eqs := []

theorem exIn_ok : exIn.Ok where
  masks := by decide
  objective := by decide
  known := by decide
  semiknown := by decide
  ineqs := by decide
  eqs := by decide
  symm := by decide +kernel
  semi_unknown := by decide +kernel
  target_unknown := by decide +kernel
  target_free := by decide +kernel

theorem exIn_fresh : feasFlags.Fresh exIn where
  inj := by intro a b h; simp only [feasFlags] at h; omega
  known := by intro k h; simp [exIn, Dict.keys, feasFlags] at h
  semi := by
    intro k s hs
    simp only [exIn, List.mem_singleton] at hs
    subst hs
    simp only [feasFlags]
    omega

theorem exIn_solves : exIn.Solves false (fun y => if y = 3 then 1 / 2 else 1) 0 where
  known := by decide +kernel
  semi := by decide +kernel
  ineq := by decide +kernel
  eq := by decide +kernel
  psd := by
    refine ⟨by decide +kernel, fun v => ?_⟩
    have : quad (fun i j => exIn.momentMatrix (fun y => if y = 3 then 1 / 2 else 1) i j - if i = j then (0 : ℚ) else 0) v
        = (v 0 + v 1 / 2) ^ 2 + 3 / 4 * v 1 ^ 2 := by
      simp only [quad, Fin.sum_univ_two, exIn, Input.momentMatrix]
      simp
      ring
    rw [this]
    positivity
  sign := by simp

/-- The hypotheses of `C32_accepted` and `C32_same_solutions` are met by a problem with solutions, known and semi-known moments. -/
example : ∃ P, prep plainFlags exIn = some P ∧ P.vars = [2] ∧ ∃ x G, P.Primal false x G := by
  obtain ⟨P, hP⟩ := C32_accepted (fl := plainFlags) exIn_ok (by simp [plainFlags]) (by decide)
  refine ⟨P, hP, ?_, ?_⟩
  · have : (prep plainFlags exIn).map (·.vars) = some [2] := by decide +kernel
    rw [hP] at this
    exact Option.some.inj this
  · obtain ⟨_, h2⟩ := C32_same_solutions exIn_ok rfl (by simp [plainFlags]) hP
    exact ⟨_, (h2 _).1.2 ⟨_, exIn_solves, fun _ _ => rfl⟩⟩

/-- The same for feasibility as optimisation: `λ = 0` is feasible. -/
example : ∃ P, prep feasFlags exIn = some P ∧ ∃ x G, P.Primal false x G := by
  obtain ⟨P, hP⟩ := C32_accepted (fl := feasFlags) exIn_ok (fun _ => exIn_fresh) (by decide)
  refine ⟨P, hP, ?_⟩
  obtain ⟨lam, h1, h2, h3, h4⟩ := C32_feasibility_as_optimisation exIn_ok rfl exIn_fresh (by decide) (by simp [feasFlags]) hP
  have := (h4 fun y => if y = lam then 0 else if y = 3 then 1 / 2 else 1).1.2 ⟨by simp [feasFlags], _, by rw [if_pos rfl]; exact exIn_solves, fun y _ hy => by simp [hy]⟩
  exact ⟨_, this⟩

/-- The hypotheses of `C31_sdp_certificate_bounds` are met: the multiplier of `v2 ≤ 1` gives the certificate `v0`. -/
example : ∃ P, prep plainFlags exIn = some P ∧ P.NoOverlap ∧ P.Dual false (fun _ _ => 0) (fun _ => 1) (fun _ => 0) ∧
    ∀ v, P.certAt false (fun _ _ => 0) (fun _ => 1) (fun _ => 0) v = v 0 := by
  obtain ⟨P, hP⟩ := C32_accepted (fl := plainFlags) exIn_ok (by simp [plainFlags]) (by decide)
  have hget : P = (prep plainFlags exIn).get (by decide +kernel) := by simp [hP]
  refine ⟨P, hP, ?_, ⟨⟨by simp, by simp [quad]⟩, by simp, fun _ => ?_, by simp⟩, fun v => ?_⟩
  · rw [hget]; unfold Prep.NoOverlap; decide +kernel
  · rw [hget]; decide +kernel
  · have hk : P.known = [(0, 1)] := by
      have : (prep plainFlags exIn).map (·.known) = some [(0, 1)] := by decide +kernel
      rw [hP] at this
      exact Option.some.inj this
    have hc : P.certEntry false (fun _ _ => 0) (fun _ => 1) (fun _ => 0) 0 = 1 := by rw [hget]; decide +kernel
    simp [Prep.certAt, hk, hc]

/-- One-dimensional: a matrix with a negative entry is not positive semidefinite. -/
theorem psd_one {M : Mat 1 ℚ} (h : PSD M) : 0 ≤ M 0 0 := by
  have := h.nonneg fun _ => 1
  simpa [quad] using this

theorem psd_one_of {M : Mat 1 ℚ} (h : 0 ≤ M 0 0) : PSD M := by
  refine ⟨fun i j => by rw [Subsingleton.elim i j], fun v => ?_⟩
  simp only [quad, Fin.sum_univ_one, Fin.isValue]
  have := mul_nonneg h (mul_self_nonneg (v 0))
  linarith [this, mul_comm (v 0 * M 0 0) (v 0), mul_assoc (v 0) (M 0 0) (v 0), mul_left_comm (v 0) (M 0 0) (v 0)]

/-- `Γ = v0 - 3 v1`, `v0 = 1`, `v1 = 1/2`, `v2 = v1`. -/
def knownTarget : Input Nat ℚ 1 where
  masks := [(0, fun _ _ => 1), (1, fun _ _ => -3), (2, fun _ _ => 0)]
  objective := []
  known := [(0, 1), (1, 1 / 2)]
  semiknown := [(2, 1, 1)]
  ineqs := []
  eqs := []

/-- **C32 fails when the other moment is known**: the program has no solution, but the problem handed to the solver has, because the known
moment becomes a variable again. -/
theorem C32_false_for_known_target : ∃ (inp : Input Nat ℚ 1) (P : Prep Nat ℚ 1), prep plainFlags inp = some P ∧ (∃ x G, P.Primal false x G) ∧
    ¬ ∃ v, inp.Solves false v 0 := by
  refine ⟨knownTarget, (prep plainFlags knownTarget).get (by decide +kernel), by simp, ⟨fun _ => -1, fun _ _ => 5 / 2, ?_⟩, ?_⟩
  · exact ⟨by decide +kernel, by decide +kernel, psd_one_of (by norm_num), by decide +kernel, by simp⟩
  · rintro ⟨v, hv⟩
    have h0 := hv.known (0, 1) (by decide)
    have h1 := hv.known (1, 1 / 2) (by decide +kernel)
    have := psd_one hv.psd
    simp only [Input.momentMatrix, knownTarget, List.map_cons, List.map_nil, List.sum_cons, List.sum_nil, if_true] at this h0 h1
    rw [h0, h1] at this
    norm_num at this

/-- `v1 = v2`, `v0 = v1`, `v2 = 1` by an equality, and `Γ = -v0`. -/
def chain : Input Nat ℚ 1 where
  masks := [(0, fun _ _ => -1), (1, fun _ _ => 0), (2, fun _ _ => 0), (9, fun _ _ => 0)]
  objective := []
  known := [(9, 1)]
  semiknown := [(1, 1, 2), (0, 1, 1)]
  ineqs := []
  eqs := [[(2, 1), (9, -1)]]

/-- **C32 fails when the other moment is semi-known** and is eliminated first: its relation is lost. -/
theorem C32_false_for_chains : ∃ (inp : Input Nat ℚ 1) (P : Prep Nat ℚ 1), prep plainFlags inp = some P ∧ (∃ x G, P.Primal false x G) ∧
    ¬ ∃ v, inp.Solves false v 0 := by
  refine ⟨chain, (prep plainFlags chain).get (by decide +kernel), by simp, ⟨fun y => if y = 1 then -1 else 1, fun _ _ => 1, ?_⟩, ?_⟩
  · exact ⟨by decide +kernel, by decide +kernel, psd_one_of (by norm_num), by decide +kernel, by simp⟩
  · rintro ⟨v, hv⟩
    have h9 := hv.known (9, 1) (by decide)
    have h1 := hv.semi (1, 1, 2) (by decide)
    have h0 := hv.semi (0, 1, 1) (by decide)
    have he := hv.eq [(2, 1), (9, -1)] (by decide)
    have := psd_one hv.psd
    simp only [Input.momentMatrix, chain, lin, List.map_cons, List.map_nil, List.sum_cons, List.sum_nil, if_true] at this h0 h1 h9 he
    linarith

/-- `Γ = v0`, `v0 = 1`; maximise `5 v0`. -/
def knownObjective : Input Nat ℚ 1 where
  masks := [(0, fun _ _ => 1)]
  objective := [(0, 5)]
  known := [(0, 1)]
  semiknown := []
  ineqs := []
  eqs := []

/-- **C31 fails for the SDP when a known moment is both in the objective and in the moment matrix**: its coefficient in the objective is
overwritten. The solution of the dual is optimal, but the certificate evaluates to 0 although the objective is 5. -/
theorem C31_sdp_false_with_known_objective : ∃ (inp : Input Nat ℚ 1) (P : Prep Nat ℚ 1) (Z : Mat 1 ℚ) (I E : Nat → ℚ) (v : Nat → ℚ),
    inp.Ok ∧ prep plainFlags inp = some P ∧ P.Dual false Z I E ∧ inp.Solves false v 0 ∧ P.dualValue false Z I E = lin inp.objective v ∧
    P.certAt false Z I E v < lin inp.objective v := by
  refine ⟨knownObjective, (prep plainFlags knownObjective).get (by decide +kernel), fun _ _ => 0, fun _ => 0, fun _ => 0, fun _ => 1, ?_, by simp, ?_, ?_, ?_, ?_⟩
  · exact ⟨by decide, by decide, by decide, by decide, by decide, by decide, by decide +kernel, by decide, by decide, by decide⟩
  · exact ⟨psd_one_of (le_refl _), by decide +kernel, by decide +kernel, by decide +kernel⟩
  · exact ⟨by decide +kernel, by decide +kernel, by decide +kernel, by decide +kernel, psd_one_of (by decide +kernel), by simp⟩
  · decide +kernel
  · decide +kernel

/-- **C49 fails when the dual is solved**: for `exIn` with the reported value `v2 = 1` the reported matrix is not the moment matrix. -/
theorem C49_dual_matrix_wrong : ∃ (inp : Input Nat ℚ 2) (P : Prep Nat ℚ 2) (v : Nat → ℚ), inp.Ok ∧ prep plainFlags inp = some P ∧
    inp.Solves false v 0 ∧ (∃ G, P.Primal false v G) ∧ P.reportedDual v ≠ inp.momentMatrix v := by
  obtain ⟨P, hP⟩ := C32_accepted (fl := plainFlags) exIn_ok (by simp [plainFlags]) (by decide)
  refine ⟨exIn, P, _, exIn_ok, hP, exIn_solves, ?_, ?_⟩
  · obtain ⟨_, h2⟩ := C32_same_solutions exIn_ok rfl (by simp [plainFlags]) hP
    exact (h2 _).1.2 ⟨_, exIn_solves, fun _ _ => rfl⟩
  · have hget : P = (prep plainFlags exIn).get (by decide +kernel) := by simp [hP]
    intro h
    have h11 := congrFun (congrFun h 1) 1
    rw [hget] at h11
    revert h11
    decide +kernel

end Verif.SdpSolver
