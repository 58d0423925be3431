import Verif.Optimum.SdpRead
import Verif.Optimum.LpFunctional
import Verif.QuantumNet.Witness
import Verif.Search.Witness
/-!
Concrete cases of C65: the largest CHSH value in the first level of the NPA hierarchy, and the largest and smallest probability of an outcome of one party.
-/
namespace Verif.Optimum
open Verif.Common Verif.Moment Verif.Scenario Verif.SdpEnd Verif.Theory Verif.QuantumNet
open Verif.State (Dict Mon)

/-! ### The CHSH expression -/

/-- `E₀₀ + E₀₁ + E₁₀ - E₁₁` in terms of the probabilities of the outcomes 0. -/
def chshObjective : List (Mon × Rat) := [([], 2), ([[1]], -4), ([[5]], -4), ([[1, 5]], 4), ([[1, 7]], 4), ([[3, 5]], 4), ([[3, 7]], -4)]

/-- The arguments given to the solver. -/
def chshArgs : SdpState.Args :=
  ⟨[([], 2), ([[1]], -4), ([[5]], -4), ([[1, 5]], 4), ([[1, 7]], 4), ([[3, 5]], 4), ([[3, 7]], -4)], [(some [], 1), (none, 1)], [], [],
    [[(some [[1]], 1)], [(some [[3]], 1)], [(some [[5]], 1)], [(some [[7]], 1)], [(some [[1, 5]], 1)], [(some [[1, 7]], 1)], [(some [[3, 5]], 1)], [(some [[3, 7]], 1)]]⟩

/-- A solver that knows this problem: its optimum is `2√2`, slightly below `99/35`. -/
def chshSolver (a : SdpState.Args) : SdpState.SolverOut := if a = chshArgs then ⟨"feasible", 99 / 35⟩ else ⟨"unknown", 0⟩

/-- `(A₀ - s (B₀ + B₁))² + (A₁ - s (B₀ - B₁))²` for the observables with values ±1 and `s = 5/7`, times 7/10. -/
noncomputable def chshZ : SdpSolver.Mat 5 ℝ := fun i j =>
  7 / 10 * ((![3 / 7, 2, 0, -10 / 7, -10 / 7] : Fin 5 → ℝ) i * (![3 / 7, 2, 0, -10 / 7, -10 / 7] : Fin 5 → ℝ) j + (![-1, 0, 2, -10 / 7, 10 / 7] : Fin 5 → ℝ) i * (![-1, 0, 2, -10 / 7, 10 / 7] : Fin 5 → ℝ) j)

theorem chshZ_psd : SdpSolver.PSD chshZ := by
  refine ⟨fun i j => by unfold chshZ; ring, fun v => ?_⟩
  have : SdpSolver.quad chshZ v = 7 / 10 * ((3 / 7 * v 0 + 2 * v 1 - 10 / 7 * v 3 - 10 / 7 * v 4) ^ 2 + (-v 0 + 2 * v 2 - 10 / 7 * v 3 + 10 / 7 * v 4) ^ 2) := by
    simp only [SdpSolver.quad, Fin.sum_univ_five, chshZ]
    simp
    ring
  rw [this]
  positivity

theorem chsh_setup : ∃ B, SdpEnd.Setup bell npaCols (SdpEnd.freshChoice bell) SdpEnd.letters B ∧
    B.sym = [1, 2, 3, 4, 5, 2, 2, 6, 7, 8, 3, 6, 3, 9, 10, 4, 7, 9, 4, 11, 5, 8, 10, 11, 5] ∧
    B.index = [(1, []), (2, [[1]]), (3, [[3]]), (4, [[5]]), (5, [[7]]), (6, [[1, 3]]), (7, [[1, 5]]), (8, [[1, 7]]), (9, [[3, 5]]), (10, [[3, 7]]), (11, [[5, 7]])] ∧
    (∀ t ∈ chshObjective, t.1 ∈ B.env.moments) ∧
    (SdpState.run B.env chshSolver [.setObjective (some chshObjective) true, .solve]).result = .solved (99 / 35) := by
  have hs : ((SdpEnd.build bell npaCols (SdpEnd.freshChoice bell) SdpEnd.letters).bind fun B => (SdpEnd.indexEqualities bell npaCols B.sym).map fun eqs =>
      (eqs.all fun e => decide (e.1 :: e.2).Nodup) && decide (B.sym = [1, 2, 3, 4, 5, 2, 2, 6, 7, 8, 3, 6, 3, 9, 10, 4, 7, 9, 4, 11, 5, 8, 10, 11, 5]) &&
      decide (B.index = [(1, []), (2, [[1]]), (3, [[3]]), (4, [[5]]), (5, [[7]]), (6, [[1, 3]]), (7, [[1, 5]]), (8, [[1, 7]]), (9, [[3, 5]]), (10, [[3, 7]]), (11, [[5, 7]])]) &&
      decide (∀ t ∈ chshObjective, t.1 ∈ B.env.moments) &&
      decide ((SdpState.run B.env chshSolver [.setObjective (some chshObjective) true, .solve]).result = .solved (99 / 35))) = some true := by decide +kernel
  obtain ⟨B, hB, h⟩ := Option.bind_eq_some_iff.1 hs
  obtain ⟨eqs, he, h⟩ := Option.map_eq_some_iff.1 h
  simp only [Bool.and_eq_true, decide_eq_true_eq] at h
  obtain ⟨⟨⟨⟨h1, h2⟩, h3⟩, h4⟩, h5⟩ := h
  exact ⟨B, ⟨SdpEnd.colsOk_of (by decide +kernel) (by decide) (by decide +kernel), by decide +kernel, SdpEnd.freshChoice_computed _, hB,
    SdpEnd.equalitiesProper_of (by rw [he]; exact congrArg some h1)⟩, h2, h3, h4, h5⟩

theorem keys_realRow {α : Type} (d : Dict α Rat) : (realRow d).keys = d.keys := by
  unfold realRow Dict.keys
  rw [List.map_map]
  rfl

theorem get_realRow {α : Type} [DecidableEq α] (d : Dict α Rat) (x : α) : (realRow d).get x = (d.get x).map fun q => ((q : Rat) : ℝ) := by
  induction d with
  | nil => rfl
  | cons t d ih =>
    show Dict.get ((t.1, ((t.2 : Rat) : ℝ)) :: realRow d) x = _
    rw [State.get_cons, State.get_cons, ih]
    split <;> rfl

theorem has_realRow {α : Type} [DecidableEq α] (d : Dict α Rat) (x : α) : SdpSolver.has (realRow d) x = SdpSolver.has d x := by
  unfold SdpSolver.has
  rw [get_realRow]
  cases d.get x <;> rfl

theorem properMasks_some {α K : Type} {n : Nat} (d : Dict α (SdpSolver.Mat n K)) : SdpSolver.properMasks (d.map fun t => (t.1, some t.2)) = some d := by
  induction d with
  | nil => rfl
  | cons t d ih => simp [SdpSolver.properMasks, ih]

/-- The variables of the problem. -/
def chshVars : List (Option Mon) := [some [[1]], some [[3]], some [[5]], some [[7]], some [[1, 3]], some [[1, 5]], some [[1, 7]], some [[3, 5]], some [[3, 7]], some [[5, 7]]]

theorem mem_base {α K : Type} [DecidableEq α] {n : Nat} (inp : SdpSolver.Input α K n) (x : α) : x ∈ SdpSolver.baseVars inp ↔
    x ∈ inp.masks.keys ++ inp.objective.keys ++ inp.eqs.flatMap Dict.keys ++ inp.ineqs.flatMap Dict.keys ∧ (!SdpSolver.has inp.known x) = true := by
  unfold SdpSolver.baseVars
  rw [List.mem_filter, mem_dedupB]

theorem chsh_vars {B : Built}
    (hidx : B.index = [(1, []), (2, [[1]]), (3, [[3]]), (4, [[5]]), (5, [[7]]), (6, [[1, 3]]), (7, [[1, 5]]), (8, [[1, 7]]), (9, [[3, 5]]), (10, [[3, 7]]), (11, [[5, 7]])]) :
    ∀ x, x ∈ SdpSolver.baseVars (solverInput 5 B chshArgs) ↔ x ∈ chshVars := by
  have h : (solverInput 5 B chshArgs).masks.keys ++ (solverInput 5 B chshArgs).objective.keys ++ (solverInput 5 B chshArgs).eqs.flatMap Dict.keys ++ (solverInput 5 B chshArgs).ineqs.flatMap Dict.keys =
      (B.index.map fun t => some t.2) ++ [none] ++ (chshArgs.objective.map fun t => some t.1) ++ chshArgs.equalities.flatMap Dict.keys ++ chshArgs.inequalities.flatMap Dict.keys := by
    unfold solverInput masks
    simp only [Dict.keys, List.map_append, List.map_map, List.flatMap_map, Function.comp_def]
    simp only [realRow, List.map_map, Function.comp_def]
    rfl
  intro x
  rw [mem_base, h, hidx]
  have hk : SdpSolver.has (solverInput 5 B chshArgs).known x = SdpSolver.has chshArgs.known x := has_realRow _ x
  rw [hk]
  clear hk
  constructor
  · rintro ⟨h1, h2⟩
    revert x
    decide
  · revert x
    decide

theorem chsh_trusted {B : Built} (hsym : B.sym = [1, 2, 3, 4, 5, 2, 2, 6, 7, 8, 3, 6, 3, 9, 10, 4, 7, 9, 4, 11, 5, 8, 10, 11, 5])
    (hidx : B.index = [(1, []), (2, [[1]]), (3, [[3]]), (4, [[5]]), (5, [[7]]), (6, [[1, 3]]), (7, [[1, 5]]), (8, [[1, 7]]), (9, [[3, 5]]), (10, [[3, 7]]), (11, [[5, 7]])]) :
    TrustedSdp 5 B true 0 chshSolver := by
  intro a ha
  unfold chshSolver at ha ⊢
  by_cases h : a = chshArgs
  swap
  · rw [if_neg h] at ha; simp at ha
  subst h
  have hv := chsh_vars hidx
  have hrow : SdpSolver.rowsOk (SdpSolver.baseVars (solverInput 5 B chshArgs)) (solverInput 5 B chshArgs).known (solverInput 5 B chshArgs).ineqs = true := by
    unfold SdpSolver.rowsOk
    rw [List.all_eq_true]
    intro d hd
    rw [List.all_eq_true]
    intro t ht
    simp only [Bool.or_eq_true, decide_eq_true_eq]
    right
    rw [hv]
    obtain ⟨d', hd', rfl⟩ := List.mem_map.1 hd
    obtain ⟨t', ht', rfl⟩ := List.mem_map.1 ht
    have : ∀ d ∈ chshArgs.inequalities, ∀ t ∈ d, t.1 ∈ chshVars := by decide
    exact this d' hd' t' ht'
  let T : SdpSolver.Prep (Option Mon) ℝ 5 := ⟨SdpSolver.baseVars (solverInput 5 B chshArgs), masks 5 B, SdpSolver.constMat (realRow chshArgs.known) ((masks 5 B).map fun t => (t.1, some t.2)),
    chshArgs.objective.map fun t => (some t.1, ((t.2 : Rat) : ℝ)), chshArgs.inequalities.map realRow, [], realRow chshArgs.known⟩
  have hT : SdpSolver.prep ⟨false, false, true, fun _ => none⟩ (solverInput 5 B chshArgs) = some T := by
    unfold SdpSolver.prep SdpSolver.start
    simp only [Bool.false_and, Bool.false_eq_true, if_false, if_true]
    have e1 : (solverInput 5 B chshArgs).semiknown = [] := rfl
    have e2 : (solverInput 5 B chshArgs).eqs = [] := rfl
    rw [e1, e2]
    simp only [SdpSolver.elimAll, Option.bind_some]
    rw [hrow, properMasks_some]
    rfl
  have hz : ∀ rows y, T.column rows (fun _ => 0) y = 0 := by
    intro rows y
    unfold SdpSolver.Prep.column
    simp
  have hk : ∀ y, SdpSolver.has T.known y = SdpSolver.has chshArgs.known y := fun y => has_realRow _ y
  refine ⟨_, T, rfl, rfl, hT, ?_⟩
  rw [if_pos rfl, if_pos rfl]
  refine ⟨chshZ, fun _ => 0, fun _ => 0, ⟨chshZ_psd, fun _ _ => le_refl _, fun _ y hy => ?_, by simp⟩, ?_⟩
  · have hy' : y ∈ chshVars := (hv y).1 hy
    unfold SdpSolver.Prep.dualLhs
    rw [hz, hz, hk]
    show _ + ((Dict.get (masks 5 B) y).map (SdpSolver.inner chshZ)).getD 0 + 0 + 0 = 0
    show (if _ then _ else (Dict.get (chshArgs.objective.map fun t : Mon × Rat => ((some t.1, ((t.2 : Rat) : ℝ)) : Option Mon × ℝ)) y).getD 0) + _ + 0 + 0 = 0
    unfold masks
    rw [hidx, hsym]
    unfold chshVars at hy'
    simp only [List.mem_cons, List.not_mem_nil, or_false] at hy'
    rcases hy' with rfl | rfl | rfl | rfl | rfl | rfl | rfl | rfl | rfl | rfl <;>
      (simp [chshArgs, Dict.get, SdpSolver.has, SdpSolver.inner, Fin.sum_univ_five, chshZ] <;> norm_num)
  · have hF : T.F0 = fun i j => if (i, j) = (0, 0) then 1 else 0 := by
      funext i j
      show SdpSolver.constMat (realRow chshArgs.known) ((masks 5 B).map fun t => (t.1, some t.2)) i j = _
      unfold SdpSolver.constMat masks
      rw [hidx, hsym]
      simp only [has_realRow, get_realRow]
      simp [chshArgs, Dict.get, SdpSolver.has, SdpSolver.entry]
      fin_cases i <;> fin_cases j <;> rfl
    have hc : T.c0 = 2 := by
      unfold SdpSolver.Prep.c0
      show (List.map (fun t => t.2 * (Dict.get (realRow chshArgs.known) t.1).getD 0) ((chshArgs.objective.map fun t : Mon × Rat => ((some t.1, ((t.2 : Rat) : ℝ)) : Option Mon × ℝ)).filter fun t => SdpSolver.has (realRow chshArgs.known) t.1)).sum = _
      simp only [has_realRow, get_realRow]
      simp [chshArgs, Dict.get, SdpSolver.has]
    unfold SdpSolver.Prep.dualValue
    rw [hF, hc]
    simp [SdpSolver.inner, Fin.sum_univ_five, chshZ]
    norm_num

/-- Tsirelson's bound (up to the rounding of the solver's answer): the CHSH value of every quantum network, of any dimension, is at most 99/35. All hypotheses of the theorem hold for this use. -/
theorem chsh_quantum_bound (A : Type) [Fintype A] [DecidableEq A] (N : QuantumNetwork bell A) (P : List Nat → Rat) (hP : N.Generates fun t => ((P t : Rat) : ℂ)) :
    ∃ x, sdpFunctionalAt bell P chshObjective = some x ∧ x ≤ 99 / 35 := by
  obtain ⟨B, hV, hsym, hidx, hm, hv⟩ := chsh_setup
  have hkn : ∀ t ∈ chshObjective, ∀ a ∈ t.1, knowable bell a = true := by decide +kernel
  obtain ⟨x, hx, hb⟩ := C65_sdp_functional_quantum_uninflated bell_accepted (by decide +kernel) hV (by decide) (fun t ht => ⟨hm t ht, hkn t ht⟩) (by decide +kernel)
    (chsh_trusted hsym hidx) hv A N P hP
  refine ⟨x, hx, ?_⟩
  unfold BoundedBy at hb
  rw [if_pos rfl, add_zero] at hb
  exact_mod_cast hb

/-- There is a network to which it applies, and it violates the bound 2 of classical models: its value is 14/5. -/
example : sdpFunctionalAt bell chsh chshObjective = some (14 / 5) ∧ (2 : Rat) < 14 / 5 ∧ (14 / 5 : Rat) ≤ 99 / 35 := by
  obtain ⟨x, hx, hb⟩ := chsh_quantum_bound _ bellNetwork chsh chsh_generated
  have h : sdpFunctionalAt bell chsh chshObjective = some (14 / 5) := by decide +kernel
  rw [h] at hx
  exact ⟨h, by norm_num, by rw [Option.some.inj hx]; exact hb⟩

/-! ### One party: `3 P[A=0] - 1` is between -1 and 2 -/

open Verif.Search (coin coinEnv coin_env coin_accepted)

def coinObjective : List (Mon × Rat) := [([], -1), ([[0]], 3)]

def coinObjArgs (maxi : Bool) : State.Args := ⟨if maxi then [(0, -1), (1, 3)] else [(0, 1), (1, -3)], [(0, 1)], [], [[(1, 1)], [(0, 1), (1, -1)]], [], []⟩

/-- A solver that knows the two problems. -/
def coinObjSolver (a : State.Args) : State.SolverOut := if a = coinObjArgs true then ⟨true, "feasible", 2⟩ else if a = coinObjArgs false then ⟨true, "feasible", 1⟩ else ⟨false, "unknown", 0⟩

theorem coinObj_point {a : State.Args} {y : List ℚ} {d : Rat}
    (h : ((LpSolver.buildTask (plain true true) (EndToEnd.toSolver (F := ℚ) 2 a)).map fun t => decide (t.numvar = 3 ∧ t.numcon = 2 ∧
      (∀ i < 2, LpSolver.sat (t.bkc.getD i .fr) (t.blc.getD i 0) (t.buc.getD i 0) (LpSolver.rowAt t.ents (fun j => y.getD j 0) i)) ∧
      (∀ j < 3, LpSolver.sat (t.bkx.getD j .fr) (t.blx.getD j 0) (t.bux.getD j 0) (y.getD j 0)) ∧ t.value (fun j => y.getD j 0) = d)) = some true) :
    ∃ t : LpSolver.Task ℚ, LpSolver.buildTask (plain true true) (EndToEnd.toSolver 2 a) = some t ∧
      if (true : Bool) then ∃ y, t.Feasible y ∧ t.value y - 0 ≤ ((d : Rat) : ℚ) else ∀ z, t.Feasible z → t.value z - 0 ≤ ((d : Rat) : ℚ) := by
  obtain ⟨t, ht, hd⟩ := Option.map_eq_some_iff.1 h
  obtain ⟨h1, h2, h3, h4, h5⟩ := of_decide_eq_true hd
  refine ⟨t, ht, ?_⟩
  rw [if_pos rfl]
  exact ⟨_, ⟨fun i hi => h3 i (by omega), fun j hj => h4 j (by omega)⟩, by rw [h5, sub_zero]⟩

theorem coinObj_trusted : TrustedLp ℚ coin.columns.length true true 0 coinObjSolver := by
  have hl : coin.columns.length = 2 := by decide +kernel
  rw [hl]
  intro a ha
  unfold coinObjSolver at ha ⊢
  split at ha
  · subst_vars
    rw [if_pos rfl]
    exact coinObj_point (y := [0, -3, 2]) (by decide +kernel)
  · rename_i n1
    split at ha
    · subst_vars
      rw [if_neg n1, if_pos rfl]
      exact coinObj_point (y := [0, 0, 1]) (by decide +kernel)
    · cases ha

/-- All hypotheses of C65 hold for maximising and for minimising: 2 and -1 are reported, and the value at every distribution generated by a classical model is in between. -/
example (Λ : Type) [Fintype Λ] (M : EndToEnd.CausalModel coin.D coin.outcomes coin.priv Λ ℚ) (P : List Nat → Rat) (hP : M.Generates fun t => ((P t : Rat) : ℚ)) :
    ∃ x, functionalAt coin P coinObjective = some x ∧ -1 ≤ x ∧ x ≤ 2 := by
  have hf : Functional coin coinObjective := by
    have : ∀ t ∈ coinObjective, t.1 ∈ coin.monomials ∧ ∀ a ∈ t.1, coin.knowable a = true := by decide +kernel
    exact this
  have hD : EndToEnd.WellFormed coin.D := ⟨by decide, by decide, by decide, by rintro u v ⟨cs, h, hv⟩ hu; simp [coin] at h hu hv ⊢; simp_all,
    by rintro u v ⟨cs, h, hv⟩ hu; simp [coin] at hu, by rintro u v ⟨cs, h, hv⟩; simp [coin] at h ⊢; simp_all⟩
  obtain ⟨x, hx, h1⟩ := C65_lp_functional_classical coin_accepted hD (by decide +kernel) coin_env hf (by decide +kernel) coinObj_trusted
    (maxi := true) (status := "feasible") (v := 2) (by decide +kernel) Λ M P hP
  obtain ⟨x', hx', h2⟩ := C65_lp_functional_classical coin_accepted hD (by decide +kernel) coin_env hf (by decide +kernel) coinObj_trusted
    (maxi := false) (status := "feasible") (v := -1) (by decide +kernel) Λ M P hP
  obtain rfl : x = x' := Option.some.inj (hx.symm.trans hx')
  unfold BoundedBy at h1 h2
  rw [if_pos rfl, add_zero] at h1
  rw [if_neg (by simp), sub_zero] at h2
  exact ⟨x, hx, by exact_mod_cast h2, by exact_mod_cast h1⟩

end Verif.Optimum
