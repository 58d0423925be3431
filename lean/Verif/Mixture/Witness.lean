import Verif.Mixture.Props
import Verif.Linear.Witness
/-!
The hypotheses of C76 are met: a coin shared by two copies of a source.
-/
namespace Verif.Mixture
open Verif.Common Verif.Canon Verif.Scenario Verif.Moment Verif.SdpEnd Verif.SdpNames Verif.Hierarchy Verif.Generate Verif.Linear
open Verif.State (Dict Mon)
open Verif.EndToEnd (CausalModel Edge)

/-- The model in which the party always answers `k`. -/
noncomputable def constantModel (k : Fin 2) : CausalModel twoCopies.D twoCopies.outcomes twoCopies.priv Unit ℝ where
  source := fun _ _ => 1
  latent := fun _ _ => ()
  response := fun _ _ _ _ a => if a = k.val then 1 else 0
  source_nonneg := fun _ _ => by norm_num
  source_sum := fun _ => by simp
  latent_local := fun _ _ _ _ => rfl
  response_nonneg := by
    intro n x o l a
    split_ifs <;> norm_num
  response_sum := by
    intro p hp x _ o _ l
    have hp : p < 1 := hp
    obtain rfl : p = 0 := by omega
    show ((List.range 2).map fun a => if a = k.val then (1 : ℝ) else 0).sum = 1
    rcases k with ⟨_ | _ | k, hk⟩
    · simp [List.range_succ]
    · simp [List.range_succ]
    · omega
  response_local := fun _ _ _ _ _ _ _ _ _ => rfl

/-- Its distribution. -/
def constantP (k : Fin 2) : List Nat → Rat := fun t => if t.getD 0 0 = k.val then 1 else 0

theorem constant_generates (k : Fin 2) : (constantModel k).Generates fun t => ((constantP k t : Rat) : ℝ) := by
  intro a ha x hx
  have ha' : a = [0] ∨ a = [1] := by
    have : ∀ a ∈ ndindex twoCopies.outcomes, a = [0] ∨ a = [1] := by decide
    exact this a ha
  have hx' : x = [0] ∨ x = [1] := by
    have : ∀ a ∈ ndindex twoCopies.priv, a = [0] ∨ a = [1] := by decide
    exact this x hx
  unfold CausalModel.prob EndToEnd.expect
  rw [Fintype.sum_unique]
  rcases ha' with rfl | rfl <;> rcases hx' with rfl | rfl <;> simp [constantModel, constantP, twoCopies] <;> split_ifs <;> norm_num

/-- The weights of the two answers. -/
def weights (k : Fin 2) : Rat := if k = 0 then 1 / 4 else 3 / 4

theorem coin_setup : ∃ B c₁ a₁ c₂ a₂, Setup twoCopies twoCols (freshChoice twoCopies) letters B ∧ setDistribution twoCopies B (mix Finset.univ weights constantP) false true = some c₁ ∧
    SdpState.solverArgs B.env (SdpState.run B.env (fun _ => ⟨"feasible", 0⟩) [c₁]) = some a₁ ∧ setDistribution twoCopies B (mix Finset.univ weights constantP) false false = some c₂ ∧
    SdpState.solverArgs B.env (SdpState.run B.env (fun _ => ⟨"feasible", 0⟩) [c₂]) = some a₂ ∧
    (some [[1]], 1 / 4) ∈ a₁.known ∧ (some [[1], [1]], 1 / 16) ∈ a₂.known ∧ [[1], [1]] ∈ B.env.moments := by
  have hm : mix Finset.univ weights constantP = fun t => 1 / 4 * constantP 0 t + 3 / 4 * constantP 1 t := by
    funext t
    unfold mix
    rw [Fin.sum_univ_two]
    rfl
  have hs : ((build twoCopies twoCols (freshChoice twoCopies) letters).bind fun B => (indexEqualities twoCopies twoCols B.sym).bind fun eqs =>
      (setDistribution twoCopies B (fun t => 1 / 4 * constantP 0 t + 3 / 4 * constantP 1 t) false true).bind fun c₁ =>
      (SdpState.solverArgs B.env (SdpState.run B.env (fun _ => ⟨"feasible", 0⟩) [c₁])).bind fun a₁ =>
      (setDistribution twoCopies B (fun t => 1 / 4 * constantP 0 t + 3 / 4 * constantP 1 t) false false).bind fun c₂ =>
      (SdpState.solverArgs B.env (SdpState.run B.env (fun _ => ⟨"feasible", 0⟩) [c₂])).map fun a₂ =>
        (eqs.all fun e => decide (e.1 :: e.2).Nodup) && decide ((some [[1]], 1 / 4) ∈ a₁.known) && decide ((some [[1], [1]], 1 / 16) ∈ a₂.known) && decide ([[1], [1]] ∈ B.env.moments)) = some true := by
    decide +kernel
  obtain ⟨B, hB, h⟩ := Option.bind_eq_some_iff.1 hs
  obtain ⟨eqs, he, h⟩ := Option.bind_eq_some_iff.1 h
  obtain ⟨c₁, hc₁, h⟩ := Option.bind_eq_some_iff.1 h
  obtain ⟨a₁, ha₁, h⟩ := Option.bind_eq_some_iff.1 h
  obtain ⟨c₂, hc₂, h⟩ := Option.bind_eq_some_iff.1 h
  obtain ⟨a₂, ha₂, h⟩ := Option.map_eq_some_iff.1 h
  simp only [Bool.and_eq_true, decide_eq_true_eq] at h
  obtain ⟨⟨⟨h1, h2⟩, h3⟩, h4⟩ := h
  refine ⟨B, c₁, a₁, c₂, a₂, ⟨colsOk_of (by decide +kernel) (by decide) (by decide +kernel), by decide +kernel, freshChoice_computed _, hB, equalitiesProper_of (by rw [he]; exact congrArg some h1)⟩, ?_, ha₁, ?_, ha₂,
    h2, h3, h4⟩
  · rw [hm]; exact hc₁
  · rw [hm]; exact hc₂

/-- The mixture of the values of the two models. -/
noncomputable def coinValues : Option Mon → ℝ := mixed Finset.univ weights fun k => values (inflated two_accepted two_wellFormed two_hasSources (constantModel k))

/-- The coin decides the answers of both copies: with the option the mixture of the values satisfies the program, without it it does not, because the answers of the two copies are not independent. -/
example : ∃ B c₁ a₁ c₂ a₂, Setup twoCopies twoCols (freshChoice twoCopies) letters B ∧ setDistribution twoCopies B (mix Finset.univ weights constantP) false true = some c₁ ∧
    SdpState.solverArgs B.env (SdpState.run B.env (fun _ => ⟨"feasible", 0⟩) [c₁]) = some a₁ ∧ setDistribution twoCopies B (mix Finset.univ weights constantP) false false = some c₂ ∧
    SdpState.solverArgs B.env (SdpState.run B.env (fun _ => ⟨"feasible", 0⟩) [c₂]) = some a₂ ∧
    (solverInput 7 B a₁).Solves false coinValues 0 ∧ ¬ (solverInput 7 B a₂).Solves false coinValues 0 := by
  obtain ⟨B, c₁, a₁, c₂, a₂, hV, hc₁, ha₁, hc₂, ha₂, k1, k2, hm⟩ := coin_setup
  have hq0 : ∀ k ∈ (Finset.univ : Finset (Fin 2)), 0 ≤ weights k := by decide +kernel
  have hq : ∑ k, weights k = 1 := by rw [Fin.sum_univ_two]; decide +kernel
  refine ⟨B, c₁, a₁, c₂, a₂, hV, hc₁, ha₁, hc₂, ha₂, ?_, ?_⟩
  · obtain ⟨c, hc, h⟩ := C76_models_not_excluded two_accepted two_wellFormed two_hasSources (fresh_usual _) hV (by decide) constantModel (fun k _ => constant_generates k) hq0 hq
    obtain rfl := Option.some.inj (hc₁.symm.trans hc)
    exact h _ [] a₁ (by simp) ha₁
  · intro h
    have h16 : coinValues (some [[1], [1]]) = ((1 / 16 : Rat) : ℝ) := h.known (some [[1], [1]], ((1 / 16 : Rat) : ℝ)) (List.mem_map.2 ⟨(some [[1], [1]], 1 / 16), k2, rfl⟩)
    have hR : ∀ k, (inflated two_accepted two_wellFormed two_hasSources (constantModel k)).Realises (constantP k) :=
      fun k => classical_realises two_accepted _ _ (EndToEnd.toClassical_realises two_accepted two_wellFormed (constantModel k) (constant_generates k))
    have hv : ∀ k : Fin 2, values (inflated two_accepted two_wellFormed two_hasSources (constantModel k)) (some [[1], [1]]) = if k = 0 then 1 else 0 := by
      intro k
      obtain ⟨x, hx, hval⟩ := hR k [1] (by decide +kernel) (by decide) (by decide) (by decide) (by decide +kernel)
      have hx0 : x = if k = 0 then 1 else 0 := by
        have : atomMarginal twoCopies (constantP k) [1] = some (if k = 0 then 1 else 0) := (by decide +kernel : ∀ k : Fin 2, atomMarginal twoCopies (constantP k) [1] = some (if k = 0 then 1 else 0)) k
        rw [this] at hx
        exact (Option.some.inj hx).symm
      show (InflatedModel.moment _ [[1], [1]]).re = _
      unfold InflatedModel.moment
      simp only [List.map_cons, List.map_nil, List.prod_cons, List.prod_nil, hval, hx0]
      split <;> simp
    have : coinValues (some [[1], [1]]) = 1 / 4 := by
      unfold coinValues mixed
      simp only [Fin.sum_univ_two, hv]
      simp [weights]
    rw [this] at h16
    norm_num at h16

end Verif.Mixture
