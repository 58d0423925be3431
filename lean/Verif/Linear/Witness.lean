import Verif.Linear.Props
import Verif.Generate.Witness
/-!
The hypotheses of C70 are met: one party with two measurements, two copies of its source, and a linearised constraint between moments whose values are not known.
-/
namespace Verif.Linear
open Verif.Common Verif.Scenario Verif.Moment Verif.SdpEnd Verif.SdpNames Verif.Generate
open Verif.State (Dict Mon)
open Verif.EndToEnd (Input CausalModel WellFormed)

/-- The first measurement answers 0 with probability 1/4, the second with probability 1/2. -/
def twoP : List Nat → Rat := fun t => if t = [0, 0] then 1 / 4 else if t = [1, 0] then 3 / 4 else 1 / 2

/-- 1, the operators of both copies, and the products of the operators of the same copy. -/
def twoCols : List (List Nat) := [[], [1], [3], [5], [7], [1, 3], [5, 7]]

theorem two_accepted : twoCopies.Accepted where
  outcomes_length := rfl
  priv_length := rfl
  parties := by decide
  outcomes_pos := by decide
  priv_pos := by decide
  acyclic := ⟨fun p => p, by decide +kernel⟩

theorem two_wellFormed : WellFormed twoCopies.D := SdpSearch.coin_wellFormed

theorem two_hasSources : HasSources twoCopies.D := SdpSearch.coin_hasSources

/-- The model: random answers. -/
noncomputable def twoModel : CausalModel twoCopies.D twoCopies.outcomes twoCopies.priv Unit ℝ where
  source := fun _ _ => 1
  latent := fun _ _ => ()
  response := fun _ x _ _ a => if a = 0 then (if x = 0 then 1 / 4 else 1 / 2) else if a = 1 then (if x = 0 then 3 / 4 else 1 / 2) else 0
  source_nonneg := fun _ _ => by norm_num
  source_sum := fun _ => by simp
  latent_local := fun _ _ _ _ => rfl
  response_nonneg := by
    intro n x o l a
    split_ifs <;> norm_num
  response_sum := by
    intro p hp x _ o _ l
    have hp : p < 1 := hp
    obtain rfl : p = 0 := by omega
    show (List.map _ (List.range 2)).sum = _
    by_cases h : x = 0 <;> simp [List.range_succ, h] <;> norm_num
  response_local := fun _ _ _ _ _ _ _ _ _ => rfl

theorem two_generates : twoModel.Generates fun t => ((twoP t : Rat) : ℝ) := by
  intro a ha x hx
  have ha' : a = [0] ∨ a = [1] := by
    have : ∀ a ∈ ndindex twoCopies.outcomes, a = [0] ∨ a = [1] := by decide
    exact this a ha
  have hx' : x = [0] ∨ x = [1] := by
    have : ∀ a ∈ ndindex twoCopies.priv, a = [0] ∨ a = [1] := by decide
    exact this x hx
  unfold CausalModel.prob EndToEnd.expect
  rw [Fintype.sum_unique]
  rcases ha' with rfl | rfl <;> rcases hx' with rfl | rfl <;> simp [twoModel, twoP, twoCopies]

theorem two_setup : ∃ B, Setup twoCopies twoCols (freshChoice twoCopies) letters B ∧ B.env.moments.all (fun m => decide (m.length ≤ 2)) = true ∧
    ((atomicMonomials B).all fun m => match m with | [b] => (!knowable twoCopies b) || (match atomMarginal twoCopies twoP b with | some p => decide (p = 0 ∨ 1 / 4 ≤ |p|) | none => true) | _ => true) = true ∧
    ((setDistribution twoCopies B twoP true false).bind fun c => (SdpState.solverArgs B.env (SdpState.run B.env (fun _ => ⟨"feasible", 0⟩) [c])).map fun a => a.semi) =
      some [([[1], [1, 3]], 1 / 4, [[1, 3]]), ([[3], [1, 3]], 1 / 2, [[1, 3]])] := by
  have hs : ((build twoCopies twoCols (freshChoice twoCopies) letters).bind fun B => (indexEqualities twoCopies twoCols B.sym).map fun eqs =>
        (eqs.all fun e => decide (e.1 :: e.2).Nodup) && B.env.moments.all (fun m => decide (m.length ≤ 2)) &&
        ((atomicMonomials B).all fun m => match m with | [b] => (!knowable twoCopies b) || (match atomMarginal twoCopies twoP b with | some p => decide (p = 0 ∨ 1 / 4 ≤ |p|) | none => true) | _ => true) &&
        decide (((setDistribution twoCopies B twoP true false).bind fun c => (SdpState.solverArgs B.env (SdpState.run B.env (fun _ => ⟨"feasible", 0⟩) [c])).map fun a => a.semi) =
          some [([[1], [1, 3]], 1 / 4, [[1, 3]]), ([[3], [1, 3]], 1 / 2, [[1, 3]])])) = some true := by decide +kernel
  obtain ⟨B, hB, h⟩ := Option.bind_eq_some_iff.1 hs
  obtain ⟨eqs, he, h⟩ := Option.map_eq_some_iff.1 h
  simp only [Bool.and_eq_true, decide_eq_true_eq] at h
  obtain ⟨⟨⟨h1, h2⟩, h3⟩, h4⟩ := h
  exact ⟨B, ⟨colsOk_of (by decide +kernel) (by decide) (by decide +kernel), by decide +kernel, freshChoice_computed _, hB, equalitiesProper_of (by rw [he]; exact congrArg some h1)⟩, h2, h3, h4⟩

theorem two_notTiny {B : Built} (h2 : B.env.moments.all (fun m => decide (m.length ≤ 2)) = true)
    (h3 : ((atomicMonomials B).all fun m => match m with | [b] => (!knowable twoCopies b) || (match atomMarginal twoCopies twoP b with | some p => decide (p = 0 ∨ 1 / 4 ≤ |p|) | none => true) | _ => true) = true) :
    NotTiny twoCopies B twoP := by
  refine C70_not_tiny (δ := 1 / 4) (L := 2) (by norm_num) (by norm_num) (by norm_num) (fun m hm => by simpa using List.all_eq_true.1 h2 m hm) ?_
  intro b hb hk p hp
  have := List.all_eq_true.1 h3 [b] hb
  simp only [hk, hp, Bool.not_true, Bool.false_or, decide_eq_true_eq] at this
  exact this

/-- The hypotheses of C70 are met, and the program has two linearised constraints. -/
example : ∃ B, Setup twoCopies twoCols (freshChoice twoCopies) letters B ∧ ∃ c, setDistribution twoCopies B twoP true false = some c ∧ Linearised twoCopies c ∧
    ∃ a, SdpState.solverArgs B.env (SdpState.run B.env (fun _ => ⟨"feasible", 0⟩) [c]) = some a ∧ Separated a ∧
      a.semi = [([[1], [1, 3]], 1 / 4, [[1, 3]]), ([[3], [1, 3]], 1 / 2, [[1, 3]])] ∧
      ∃ Q : SdpSolver.Prep (Option Mon) ℝ 7, SdpSolver.prep ⟨false, false, true, fun _ => none⟩ (solverInput 7 B a) = some Q ∧ ∃ x G, Q.Primal false x G := by
  obtain ⟨B, hV, h2, h3, h4⟩ := two_setup
  obtain ⟨c, hc, hok, a, ha, h⟩ := C70_distribution_never_excluded two_accepted two_wellFormed two_hasSources twoModel two_generates hV (fresh_usual _) (by decide) (two_notTiny h2 h3) fun _ => ⟨"feasible", 0⟩
  obtain ⟨Q, hQ, ⟨x, G, hp, -⟩, -⟩ := h ⟨false, false, true, fun _ => none⟩ rfl (by simp)
  have hl := linearised_distribution hV (fresh_usual _) hc
  rw [hc, Option.bind_some, ha] at h4
  exact ⟨B, hV, c, hc, hl, a, ha, C70_separated hV (fresh_usual _) _ [c] (by simpa using hl) ha, Option.some.inj h4, Q, hQ, x, G, hp⟩

end Verif.Linear
