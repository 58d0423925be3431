import Verif.EndToEnd.Props
import Verif.LpSolver.CertProps
/-!
C53: certificates of incompatibility are inequalities satisfied by every classical model.
-/
namespace Verif.EndToEnd
open Verif.Common Verif.Scenario Verif.Orbits Verif.Components Verif.Moment Verif.State Verif.CollinsGisin
open Verif.LpSolver (Coo Flags buildTask linear prepare Prep Returned certAt certificate dictAt slackVec dense)
open ClassicalModel (Capacity)

variable {I : Input} {Λ F : Type} [Fintype Λ] [Field F] [LinearOrder F] [IsStrictOrderedRing F]

theorem evalMon_lpi_false {K : Type} (E : Env K) (at' : Dict Atom Rat) (l : List Mon) (st : Dict Mon Rat × Dict Mon (Rat × Mon)) :
    (l.foldl (evalMon E at' false) st).2 = st.2 := by
  induction l generalizing st with
  | nil => rfl
  | cons m l ih =>
    rw [List.foldl_cons, ih]
    unfold evalMon
    dsimp only
    split <;> rfl

theorem cleanup_plain {K : Type} (E : Env K) (s : LpState) (h1 : s.semi = []) (h2 : s.extraEq = []) (h3 : s.extraIneq = []) :
    (cleanup E s).semi = [] ∧ (cleanup E s).extraEq = [] ∧ (cleanup E s).extraIneq = [] := by
  unfold cleanup
  dsimp only
  split
  · exact ⟨rfl, h2, h3⟩
  · rw [h1]; exact ⟨rfl, h2, h3⟩

/-- Without linearised constraints, setting values leaves no relations between moments and no extra constraints. -/
theorem setValues_plain {K : Type} (E : Env K) (v : List (K × Option Rat)) (o : Bool) (s : LpState) :
    (setValues E v false o s).semi = [] ∧ (setValues E v false o s).extraEq = [] ∧ (setValues E v false o s).extraIneq = [] := by
  unfold setValues updateValues
  dsimp only
  split
  · exact cleanup_plain E _ rfl rfl rfl
  · split
    · exact cleanup_plain E _ rfl rfl rfl
    · exact cleanup_plain E _ (evalMon_lpi_false E _ _ _) rfl rfl

/-- The probabilities that a classical model gives to the columns satisfy the causal constraints of the solver's problem, when these are only the generated ones. -/
theorem generated_causal (hI : I.Accepted) (M : ClassicalModel I.scenario I.observed Λ F) (hcap : ∀ v ∈ I.columns, Capacity I.scenario (flatnonzero v))
    {name : Atom → String} {E : Env Mon} (hE : I.lpEnv name = some E) {s : LpState} (h1 : s.semi = []) (h2 : s.extraEq = []) (h3 : s.extraIneq = [])
    {a : Args} (ha : solverArgs E s = some a) :
    LpSolver.Causal (toSolver I.columns.length a : LpSolver.Args F) (columnsF E (valF M.event)) := by
  obtain ⟨r1, r2⟩ := rows_hold hI M hcap hE
  obtain ⟨xe, se, xi, g1, g2, g3, _, _, _, _, g8, g9⟩ := solverArgs_some E s a ha
  rw [h2] at g1; rw [h1] at g2; rw [h3] at g3
  simp only [List.mapM_nil, Option.pure_def, Option.some.injEq] at g1 g2 g3
  subst g1 g2 g3
  rw [List.append_nil, List.append_nil] at g8
  rw [List.append_nil] at g9
  constructor
  · intro i hi
    have hi' : i < a.inequalities.length := by
      have : (toSolver I.columns.length a : LpSolver.Args F).ineq.rows = a.inequalities.length := by simp [toSolver, toMat, LpSolver.rowsMat]
      omega
    show 0 ≤ LpSolver.rowAt (toMat I.columns.length a.inequalities : Coo F).ents _ i
    rw [rowAt_toMat _ _ _ hi']
    exact r2 _ (by rw [← g9]; exact List.getElem_mem _)
  · intro i hi
    have hi' : i < a.equalities.length := by
      have : (toSolver I.columns.length a : LpSolver.Args F).eq.rows = a.equalities.length := by simp [toSolver, toMat, LpSolver.rowsMat]
      omega
    show LpSolver.rowAt (toMat I.columns.length a.equalities : Coo F).ents _ i = 0
    rw [rowAt_toMat _ _ _ hi']
    exact r1 _ (by rw [← g8]; exact List.getElem_mem _)

/-- **C53, a certificate is a valid causal compatibility inequality.** Set any distribution `P` (compatible or not, in any previous state without bounds and objective, without
linearised constraints), solve in any form, relaxed or not, and take the multipliers the solver returns. The certificate built from them is non-negative at the moments of
every classical model of the causal structure. -/
theorem C53_certificate_is_valid_inequality (hI : I.Accepted) (M : ClassicalModel I.scenario I.observed Λ F) (hcap : ∀ v ∈ I.columns, Capacity I.scenario (flatnonzero v))
    {name : Atom → String} {E : Env Mon} (hE : I.lpEnv name = some E) (solver : Args → SolverOut) (h : List (Call Mon)) {P : List Nat → Rat} {shared : Bool} {c : Call Mon}
    (hc : I.setDistribution P false shared = some c) {a : Args} (ha : solverArgs E (run E solver (h ++ [c])) = some a)
    (hl : a.lower = []) (hu : a.upper = []) (ho : a.objective = []) {f : Flags} {p : Prep F} (hp : prepare f (toSolver I.columns.length a) = some p)
    {y : List F} (hy : Returned f (toSolver I.columns.length a) (fun j => (if f.relaxed then slackVec p.con.cols else dense p.objective : List F).getD j 0) y) :
    0 ≤ certAt I.columns.length f p y fun i => M.vec (I.columns.getD i []) := by
  have hrun : run E solver (h ++ [c]) = step E solver (run E solver h) c := by
    unfold run
    rw [List.foldl_append]
    rfl
  unfold Input.setDistribution at hc
  obtain ⟨v, _, rfl⟩ := Option.map_eq_some_iff.1 hc
  obtain ⟨h1, h2, h3⟩ := setValues_plain E v shared (run E solver h)
  have hcau : LpSolver.Causal (toSolver I.columns.length a : LpSolver.Args F) (columnsF E (valF M.event)) :=
    generated_causal hI M hcap hE (s := run E solver (h ++ [.setValues v false shared])) (by rw [hrun]; exact h1) (by rw [hrun]; exact h2) (by rw [hrun]; exact h3) ha
  have hcol : ∀ i, i < I.columns.length → columnsF E (valF M.event) i = M.vec (I.columns.getD i []) := by
    intro i hi
    obtain ⟨_, _, _, _, _, _, rfl⟩ := lpEnv_some hE
    exact column_value hI M hi (hcap _ (by rw [List.getD_eq_getElem _ _ hi]; exact List.getElem_mem _))
  have := LpSolver.C31_feasibility_certificate_valid (toSolver_ok hE solver _ ha) (by simp [LpSolver.NoBounds, toSolver, toVec, hl, hu]) (by simp [toSolver, toVec, ho]) hp hy
    hcau (fun _ j hj => by rw [hcol j hj]; exact M.event_nonneg _)
  unfold certAt at this ⊢
  refine le_of_le_of_eq this (Finset.sum_congr rfl fun j hj => ?_)
  rw [hcol j (Finset.mem_range.1 hj)]

/-- **C53, the reported dictionary.** The dictionary `dual_certificate` drops entries within 10⁻⁸ of zero; evaluated on a classical model it is at least minus 10⁻⁸ times the number
of moments. -/
theorem C53_reported_certificate (hI : I.Accepted) (M : ClassicalModel I.scenario I.observed Λ F) (hcap : ∀ v ∈ I.columns, Capacity I.scenario (flatnonzero v))
    {name : Atom → String} {E : Env Mon} (hE : I.lpEnv name = some E) (solver : Args → SolverOut) (h : List (Call Mon)) {P : List Nat → Rat} {shared : Bool} {c : Call Mon}
    (hc : I.setDistribution P false shared = some c) {a : Args} (ha : solverArgs E (run E solver (h ++ [c])) = some a)
    (hl : a.lower = []) (hu : a.upper = []) (ho : a.objective = []) {f : Flags} {p : Prep F} (hp : prepare f (toSolver I.columns.length a) = some p)
    {y : List F} (hy : Returned f (toSolver I.columns.length a) (fun j => (if f.relaxed then slackVec p.con.cols else dense p.objective : List F).getD j 0) y) :
    -(1 / 100000000 * (I.columns.length : F)) ≤ dictAt (certificate f p I.columns.length y) fun i => M.vec (I.columns.getD i []) := by
  have h1 := C53_certificate_is_valid_inequality hI M hcap hE solver h hc ha hl hu ho hp hy
  have h2 := LpSolver.C31_dictionary_close (toSolver_ok (F := F) hE solver _ ha) hp y fun i => M.vec (I.columns.getD i [])
  have h3 : ∑ j ∈ Finset.range I.columns.length, |M.vec (I.columns.getD j [])| ≤ (I.columns.length : F) := by
    calc ∑ j ∈ Finset.range I.columns.length, |M.vec (I.columns.getD j [])| ≤ ∑ j ∈ Finset.range I.columns.length, (1 : F) := by
          apply Finset.sum_le_sum
          intro j _
          unfold ClassicalModel.vec
          rw [abs_of_nonneg (M.event_nonneg _)]
          exact M.event_le_one hI.ok _
      _ = (I.columns.length : F) := by simp
  have h4 : (1 / 100000000 : F) * ∑ j ∈ Finset.range I.columns.length, |M.vec (I.columns.getD j [])| ≤ 1 / 100000000 * (I.columns.length : F) :=
    mul_le_mul_of_nonneg_left h3 (by norm_num)
  linarith

end Verif.EndToEnd
