import Verif.QuantumNet.Props
import Verif.Theory.Witness
import Verif.SdpEnd.Witness
/-!
A quantum network that violates the CHSH inequality: the singlet-like state of two qubits and measurements with rational coefficients.
-/
namespace Verif.QuantumNet
open Verif.Common Verif.Scenario Verif.State Verif.CollinsGisin Verif.Theory Verif.Components
open Verif.EndToEnd (Input capacity_of_length)
open Verif.EndToEnd.ClassicalModel (Capacity)
open Verif.Orbits Verif.Moment
set_option linter.unusedSectionVars false

/-- The state `(|00⟩ + |11⟩)/√2` as a matrix. -/
def bellState (s : Fin bell.scenario.nSources) : Matrix (Receivers bell s → Fin 2) (Receivers bell s → Fin 2) ℚ :=
  fun i j => if (∀ p q, i p = i q) ∧ (∀ p q, j p = j q) then 1 / 2 else 0

/-- The cosine and the sine of the angle of a measurement. -/
def angle (p x : Nat) : ℚ × ℚ := if p = 0 then if x = 0 then (1, 0) else (0, 1) else if x = 0 then (4 / 5, 3 / 5) else (4 / 5, -3 / 5)

/-- The projector for the outcome: `(1 ± (cos σz + sin σx))/2`. -/
def bellEffect (p x : Nat) (o : Nat) : Matrix (Received bell p → Fin 2) (Received bell p → Fin 2) ℚ := fun i j =>
  if p < 2 ∧ x < 2 ∧ o < 2 then
    let u : ℚ := if o = 0 then 1 else -1
    if i = j then if ∀ s, i s = 0 then (1 + u * (angle p x).1) / 2 else (1 - u * (angle p x).1) / 2 else u * (angle p x).2 / 2
  else 0

theorem bellEffect_zero {p x o : Nat} (h : ¬ (p < 2 ∧ x < 2 ∧ o < 2)) : bellEffect p x o = 0 := by
  ext i j
  simp only [bellEffect, if_neg h, Matrix.zero_apply]

theorem bellEffect_cases (Q : ∀ p x o, Matrix (Received bell p → Fin 2) (Received bell p → Fin 2) ℚ → Prop) (h0 : ∀ p x o, Q p x o 0)
    (h : ∀ p ∈ List.range 2, ∀ x ∈ List.range 2, ∀ o ∈ List.range 2, Q p x o (bellEffect p x o)) (p x o : Nat) : Q p x o (bellEffect p x o) := by
  by_cases hr : p < 2 ∧ x < 2 ∧ o < 2
  · exact h p (List.mem_range.2 hr.1) x (List.mem_range.2 hr.2.1) o (List.mem_range.2 hr.2.2)
  · rw [bellEffect_zero hr]; exact h0 p x o

theorem bellEffect_projector (p x o : Nat) : bellEffect p x o * bellEffect p x o = bellEffect p x o ∧ (bellEffect p x o).transpose = bellEffect p x o :=
  bellEffect_cases (fun _ _ _ X => X * X = X ∧ X.transpose = X) (by simp) (by decide +kernel) p x o

theorem bellEffect_orthogonal (p x a b : Nat) (hab : a ≠ b) : bellEffect p x a * bellEffect p x b = 0 := by
  by_cases hr : p < 2 ∧ x < 2 ∧ a < 2
  swap
  · rw [bellEffect_zero hr, zero_mul]
  by_cases hb : b < 2
  swap
  · rw [bellEffect_zero (o := b) (by tauto), mul_zero]
  have : ∀ p ∈ List.range 2, ∀ x ∈ List.range 2, ∀ a ∈ List.range 2, ∀ b ∈ List.range 2, a ≠ b → bellEffect p x a * bellEffect p x b = 0 := by decide +kernel
  exact this p (List.mem_range.2 hr.1) x (List.mem_range.2 hr.2.1) a (List.mem_range.2 hr.2.2) b (List.mem_range.2 hb) hab

theorem bellEffect_complete (p : Nat) (hp : p < 2) (x : Nat) (hx : x < 2) : bellEffect p x 0 + bellEffect p x 1 = 1 := by
  have : ∀ p ∈ List.range 2, ∀ x ∈ List.range 2, bellEffect p x 0 + bellEffect p x 1 = 1 := by decide +kernel
  exact this p (List.mem_range.2 hp) x (List.mem_range.2 hx)

theorem bellState_projector (s : Fin bell.scenario.nSources) : (bellState s).transpose * bellState s = bellState s := by
  have : ∀ s, (bellState s).transpose * bellState s = bellState s := by decide +kernel
  exact this s

theorem bellState_trace (s : Fin bell.scenario.nSources) : (bellState s).trace = 1 := by
  have : ∀ s, (bellState s).trace = 1 := by decide +kernel
  exact this s

/-- A rational matrix as a complex one. -/
noncomputable def toC {J : Type} (X : Matrix J J ℚ) : Matrix J J ℂ := X.map fun q => ((q : ℚ) : ℂ)

section
variable {J : Type} [Fintype J] [DecidableEq J]
theorem toC_mul (X Y : Matrix J J ℚ) : toC (X * Y) = toC X * toC Y := by
  ext i j
  simp [toC, Matrix.mul_apply]
theorem toC_conjTranspose (X : Matrix J J ℚ) : (toC X).conjTranspose = toC X.transpose := by
  ext i j
  simp [toC, Matrix.conjTranspose_apply]
theorem toC_add (X Y : Matrix J J ℚ) : toC (X + Y) = toC X + toC Y := by
  ext i j
  simp [toC]
theorem toC_one : toC (1 : Matrix J J ℚ) = 1 := by
  ext i j
  by_cases h : i = j
  · subst h; simp [toC]
  · simp [toC, Matrix.one_apply_ne h]
theorem toC_zero : toC (0 : Matrix J J ℚ) = 0 := by
  ext i j
  simp [toC]
theorem toC_trace (X : Matrix J J ℚ) : (toC X).trace = ((X.trace : ℚ) : ℂ) := by
  simp [toC, Matrix.trace]
end

theorem bell_quantum : QuantumLinked bell.D 10 0 0 ∧ QuantumLinked bell.D 10 1 1 :=
  ⟨⟨by decide, Or.inl ⟨1, by decide, by decide, by decide, by decide⟩⟩, ⟨by decide, Or.inl ⟨2, by decide, by decide, by decide, by decide⟩⟩⟩

/-- The quantum network. -/
noncomputable def bellNetwork : QuantumNetwork bell (Fin 2) where
  state := fun s => toC (bellState s)
  effect := fun p x _ o => toC (bellEffect p x o)
  state_positive := fun s => ⟨toC (bellState s), by rw [toC_conjTranspose, ← toC_mul, bellState_projector]⟩
  state_trace := fun s => by rw [toC_trace, bellState_trace]; simp
  effect_projector := fun p x _ a => ⟨by rw [← toC_mul, (bellEffect_projector p x a).1], by rw [toC_conjTranspose, (bellEffect_projector p x a).2]⟩
  effect_orthogonal := fun p x _ a b hab => by rw [← toC_mul, bellEffect_orthogonal p x a b hab, toC_zero]
  effect_complete := by
    intro p hp x hx y _
    have hp : p < 2 := hp
    have ho : bell.scenario.outcomes p = 2 := by
      rcases p with _ | _ | p
      · rfl
      · rfl
      · omega
    have hx : x < 2 := by
      rcases p with _ | _ | p
      · exact hx
      · exact hx
      · omega
    rw [ho]
    show toC (bellEffect p x 0) + (toC (bellEffect p x 1) + 0) = 1
    rw [add_zero, ← toC_add, bellEffect_complete p hp x hx, toC_one]
  effect_classical := by
    intro p x y a s hq
    have h1 : bell.scenario.nSources = 1 := by decide
    have hs : s.1 = ⟨0, by decide⟩ := Fin.ext (by have := s.1.2; show s.1.1 = 0; omega)
    rcases p with _ | _ | p
    · exact absurd (by rw [hs]; exact bell_quantum.1) hq
    · exact absurd (by rw [hs]; exact bell_quantum.2) hq
    · intro i j h
      exact absurd (by rw [bellEffect_zero (by omega), toC_zero]; rfl) h

/-- Its distribution, computed with rationals. -/
def bellArray (t : List Nat) : ℚ :=
  ∑ i : (Σ s, Receivers bell s) → Fin 2, ∑ j : (Σ s, Receivers bell s) → Fin 2, (∏ s, bellState s (fun p => i ⟨s, p⟩) (fun p => j ⟨s, p⟩)) *
    ∏ p : Fin bell.scenario.nParties, bellEffect p (t.getD (2 + p) 0) (t.getD p 0) (fun s => j ⟨s.1, p, s.2⟩) (fun s => i ⟨s.1, p, s.2⟩)

theorem bell_generates : bellNetwork.Generates fun t => ((bellArray t : Rat) : ℂ) := by
  intro a ha x hx
  have hal : a.length = 2 := by rw [mem_ndindex] at ha; exact ha.1
  have key : ∀ p : Fin bell.scenario.nParties, (a ++ x).getD p 0 = a.getD p 0 ∧ (a ++ x).getD (2 + p) 0 = x.getD p 0 := by
    intro p
    have : (p : Nat) < 2 := p.2
    exact ⟨List.getD_append _ _ _ _ (by omega), by rw [List.getD_append_right _ _ _ _ (by omega), hal]; congr 1; omega⟩
  simp only [bellArray, QuantumNetwork.prob, bellNetwork, toC, Matrix.map_apply, fun p => (key p).1, fun p => (key p).2]
  push_cast
  rfl

/-- The distribution in closed form: uniform marginals and the correlators 4/5, 4/5, 3/5 and -3/5. -/
def chsh : List Nat → Rat
  | [a, b, x, y] => (1 + (if a = b then 1 else -1) * (if x = 0 then 4 / 5 else if y = 0 then 3 / 5 else -3 / 5)) / 4
  | _ => 0

theorem chsh_eq : ∀ a ∈ ndindex ((List.range bell.scenario.nParties).map bell.scenario.outcomes), ∀ x ∈ ndindex ((List.range bell.scenario.nParties).map bell.observed.priv),
    chsh (a ++ x) = bellArray (a ++ x) := by decide +kernel

theorem chsh_generated : bellNetwork.Generates fun t => ((chsh t : Rat) : ℂ) := by
  intro a ha x hx
  rw [← bell_generates a ha x hx]
  show ((chsh (a ++ x) : Rat) : ℂ) = ((bellArray (a ++ x) : Rat) : ℂ)
  rw [chsh_eq a ha x hx]

/-- The correlator of the settings. -/
def correlator (x y : Nat) : Rat := chsh [0, 0, x, y] + chsh [1, 1, x, y] - chsh [0, 1, x, y] - chsh [1, 0, x, y]

/-- No classical model of the Bell scenario has a CHSH value above 2; the network has 2.8 . -/
theorem chsh_value : correlator 0 0 + correlator 0 1 + correlator 1 0 - correlator 1 1 = 14 / 5 := by decide +kernel

/-- The program is built, and `set_distribution` of the CHSH distribution leaves a problem for the solver with known values, equalities and inequalities. -/
theorem bell_args : (EndToEnd.argsOf bell chsh false).isSome = true := by decide +kernel

/-- The CHSH distribution, which no classical model has, is accepted and leaves a feasible linear program. -/
example : ∃ E c a, bell.lpEnv (fun _ => "") = some E ∧ bell.setDistribution chsh false false = some c ∧ solverArgs E (run E (fun _ => ⟨true, "", 0⟩) [c]) = some a ∧
    ∃ x : Nat → ℝ, EndToEnd.FeasibleIn a x ∧ ∀ i, i < bell.columns.length → 0 ≤ x i := by
  obtain ⟨⟨E, c, a⟩, h⟩ := Option.isSome_iff_exists.1 bell_args
  obtain ⟨h1, h2, h3⟩ := EndToEnd.argsOf_some h
  obtain ⟨c', hc', hf⟩ := C58_quantum_network_never_excluded bell_accepted bellNetwork chsh_generated bell_short h1 (fun _ => ⟨true, "", 0⟩) false
  rw [h2] at hc'
  have := Option.some.inj hc'
  subst this
  exact ⟨E, c, a, h1, h2, h3, hf a h3⟩

/-- The generating set of the first level of the NPA hierarchy: the unit and one operator for every party and setting. -/
def npaCols : List (List Nat) := [[], [1], [3], [5], [7]]

theorem npa_setup : ∃ B, SdpEnd.Setup bell npaCols (SdpEnd.freshChoice bell) SdpEnd.letters B := by
  have hs : ((SdpEnd.build bell npaCols (SdpEnd.freshChoice bell) SdpEnd.letters).bind fun B =>
      (SdpEnd.indexEqualities bell npaCols B.sym).map fun eqs => eqs.all fun e => decide (e.1 :: e.2).Nodup) = some true := by decide +kernel
  obtain ⟨B, hB, he⟩ := Option.bind_eq_some_iff.1 hs
  exact ⟨B, SdpEnd.colsOk_of (by decide +kernel) (by decide) (by decide +kernel), by decide +kernel, SdpEnd.freshChoice_computed _, hB, SdpEnd.equalitiesProper_of he⟩

/-- The semidefinite program of the first level of the NPA hierarchy is feasible for the CHSH distribution. -/
example : ∃ B, SdpEnd.Setup bell npaCols (SdpEnd.freshChoice bell) SdpEnd.letters B ∧
    ∃ c, SdpEnd.setDistribution bell B chsh false false = some c ∧ SdpState.Ok B.env (fun _ => ⟨"feasible", 0⟩) [c] ∧
      ∃ a, SdpState.solverArgs B.env (SdpState.run B.env (fun _ => ⟨"feasible", 0⟩) [c]) = some a ∧ (∃ t ∈ a.known, t.2 = 9 / 20) ∧
        ∃ Q : SdpSolver.Prep (Option Mon) ℝ 5, SdpSolver.prep ⟨false, false, true, fun _ => none⟩ (SdpEnd.solverInput 5 B a) = some Q ∧ ∃ x G, Q.Primal false x G ∧ Q.primalValue x = 0 := by
  obtain ⟨B, hV⟩ := npa_setup
  obtain ⟨c, hc, hok, a, ha, h⟩ := C56_quantum_network_uninflated_never_excluded bell_accepted bellNetwork chsh_generated (by decide +kernel) hV (by decide) fun _ => ⟨"feasible", 0⟩
  obtain ⟨Q, hQ, hp, _⟩ := h ⟨false, false, true, fun _ => none⟩ rfl (by simp)
  refine ⟨B, hV, c, hc, hok, a, ha, ?_, Q, hQ, hp⟩
  have hk : (((SdpEnd.build bell npaCols (SdpEnd.freshChoice bell) SdpEnd.letters).bind fun B => (SdpEnd.setDistribution bell B chsh false false).bind fun c =>
      SdpState.solverArgs B.env (SdpState.run B.env (fun _ => ⟨"feasible", 0⟩) [c])).map fun a => decide (∃ t ∈ a.known, t.2 = 9 / 20)) = some true := by decide +kernel
  rw [hV.built, Option.bind_some, hc, Option.bind_some, ha] at hk
  exact of_decide_eq_true (Option.some.inj hk)

end Verif.QuantumNet
