import Verif.Theory.Props
import Verif.EndToEnd.CertProps
/-!
C59: certificates of incompatibility of a nonfanout inflation are inequalities satisfied in every physical theory.
-/
namespace Verif.Theory
open Verif.Common Verif.Scenario Verif.Orbits Verif.Components Verif.Moment Verif.State Verif.CollinsGisin
open Verif.EndToEnd (Input valF lpEnv_some columnsF dictValF toSolver toSolver_ok toVec toMat rowAt_toMat setValues_plain)
open Verif.LpSolver (Coo Flags buildTask linear prepare Prep Returned certAt certificate dictAt slackVec dense)
open Verif.EndToEnd.ClassicalModel (Capacity)

variable {I : Input} {F : Type} [Field F] [LinearOrder F] [IsStrictOrderedRing F]

omit [LinearOrder F] [IsStrictOrderedRing F] [Field F] in
theorem Joint.outcome {x : Op} {e : List Op} (h : Joint I (x :: e)) {o : Nat} (ho : o < I.scenario.outcomes (x.party - 1)) : Joint I ({ x with outcome := o } :: e) where
  valid := by
    intro y hy
    rcases List.mem_cons.1 hy with rfl | hy
    · have hv := h.valid x (List.mem_cons_self ..)
      exact ⟨hv.party_pos, hv.party_le, hv.copies_len, hv.copies_ok, hv.setting_lt, ho⟩
    · exact h.valid y (List.mem_cons_of_mem _ hy)
  compat := List.pairwise_cons.2 ⟨fun y hy => (List.pairwise_cons.1 h.compat).1 y hy, (List.pairwise_cons.1 h.compat).2⟩

/-- Probabilities are at most 1. -/
theorem InflatedTheory.prob_le_one (T : InflatedTheory I F) {e : List Op} (h : Joint I e) : T.prob e ≤ 1 := by
  induction e with
  | nil => exact le_of_eq T.unit
  | cons x e ih =>
    have he : Joint I e := h.sublist (List.sublist_cons_self ..)
    refine le_trans ?_ (ih he)
    rw [← T.marginal x e h]
    have hv := h.valid x (List.mem_cons_self ..)
    refine List.single_le_sum ?_ _ (List.mem_map.2 ⟨x.outcome, List.mem_range.2 hv.outcome_lt, rfl⟩)
    intro q hq
    obtain ⟨o, ho, rfl⟩ := List.mem_map.1 hq
    exact T.nonneg _ (h.outcome (List.mem_range.1 ho))

/-- The probabilities that a theory gives to the columns satisfy the causal constraints of the solver's problem, when these are only the generated ones. -/
theorem generated_causal (hI : I.Accepted) (T : InflatedTheory I F) (hcap : ∀ v ∈ I.columns, Capacity I.scenario (flatnonzero v))
    {name : Atom → String} {E : Env Mon} (hE : I.lpEnv name = some E) {s : LpState} (h1 : s.semi = []) (h2 : s.extraEq = []) (h3 : s.extraIneq = [])
    {a : Args} (ha : solverArgs E s = some a) :
    LpSolver.Causal (toSolver I.columns.length a : LpSolver.Args F) (columnsF E (valF T.event)) := by
  obtain ⟨r1, r2⟩ := T.rows_hold hI hcap hE
  obtain ⟨xe, se, xi, g1, g2, g3, _, _, _, _, g8, g9⟩ := solverArgs_some E s a ha
  rw [h2] at g1; rw [h1] at g2; rw [h3] at g3
  simp only [List.mapM_nil, Option.pure_def, Option.some.injEq] at g1 g2 g3
  subst g1 g2 g3
  rw [List.append_nil, List.append_nil] at g8
  rw [List.append_nil] at g9
  constructor
  · intro i hi
    have hi' : i < a.inequalities.length := by
      have : (toSolver I.columns.length a : LpSolver.Args F).ineq.rows = a.inequalities.length := by simp [toSolver, toMat, LpSolver.rowsMat]
      omega
    show 0 ≤ LpSolver.rowAt (toMat I.columns.length a.inequalities : Coo F).ents _ i
    rw [rowAt_toMat _ _ _ hi']
    exact r2 _ (by rw [← g9]; exact List.getElem_mem _)
  · intro i hi
    have hi' : i < a.equalities.length := by
      have : (toSolver I.columns.length a : LpSolver.Args F).eq.rows = a.equalities.length := by simp [toSolver, toMat, LpSolver.rowsMat]
      omega
    show LpSolver.rowAt (toMat I.columns.length a.equalities : Coo F).ents _ i = 0
    rw [rowAt_toMat _ _ _ hi']
    exact r1 _ (by rw [← g8]; exact List.getElem_mem _)

/-- **C59, a certificate is a valid causal compatibility inequality.** Set any distribution `P` (compatible or not, in any previous state without bounds and objective, without
linearised constraints), solve in any form, relaxed or not, and take the multipliers the solver returns. The certificate built from them is non-negative at the moments of
every physical theory (classical, quantum or beyond). -/
theorem C59_certificate_is_valid_inequality (hI : I.Accepted) (T : InflatedTheory I F) (hcap : ∀ v ∈ I.columns, Capacity I.scenario (flatnonzero v))
    {name : Atom → String} {E : Env Mon} (hE : I.lpEnv name = some E) (solver : Args → SolverOut) (h : List (Call Mon)) {P : List Nat → Rat} {shared : Bool} {c : Call Mon}
    (hc : I.setDistribution P false shared = some c) {a : Args} (ha : solverArgs E (run E solver (h ++ [c])) = some a)
    (hl : a.lower = []) (hu : a.upper = []) (ho : a.objective = []) {f : Flags} {p : Prep F} (hp : prepare f (toSolver I.columns.length a) = some p)
    {y : List F} (hy : Returned f (toSolver I.columns.length a) (fun j => (if f.relaxed then slackVec p.con.cols else dense p.objective : List F).getD j 0) y) :
    0 ≤ certAt I.columns.length f p y fun i => T.event (flatnonzero (I.columns.getD i [])) := by
  have hrun : run E solver (h ++ [c]) = step E solver (run E solver h) c := by
    unfold run
    rw [List.foldl_append]
    rfl
  unfold Input.setDistribution at hc
  obtain ⟨v, _, rfl⟩ := Option.map_eq_some_iff.1 hc
  obtain ⟨h1, h2, h3⟩ := setValues_plain E v shared (run E solver h)
  have hcau : LpSolver.Causal (toSolver I.columns.length a : LpSolver.Args F) (columnsF E (valF T.event)) :=
    generated_causal hI T hcap hE (s := run E solver (h ++ [.setValues v false shared])) (by rw [hrun]; exact h1) (by rw [hrun]; exact h2) (by rw [hrun]; exact h3) ha
  have hcol : ∀ i, i < I.columns.length → columnsF E (valF T.event) i = T.event (flatnonzero (I.columns.getD i [])) := by
    intro i hi
    exact (T.column_event hI hcap hE hi).1
  have := LpSolver.C31_feasibility_certificate_valid (toSolver_ok hE solver _ ha) (by simp [LpSolver.NoBounds, toSolver, toVec, hl, hu]) (by simp [toSolver, toVec, ho]) hp hy
    hcau (fun _ j hj => by rw [hcol j hj]; exact (T.column_event hI hcap hE hj).2)
  unfold certAt at this ⊢
  refine le_of_le_of_eq this (Finset.sum_congr rfl fun j hj => ?_)
  rw [hcol j (Finset.mem_range.1 hj)]

/-- **C59, the reported dictionary.** The dictionary `dual_certificate` drops entries within 10⁻⁸ of zero; evaluated on a physical theory it is at least minus 10⁻⁸ times the number
of moments. -/
theorem C59_reported_certificate (hI : I.Accepted) (T : InflatedTheory I F) (hcap : ∀ v ∈ I.columns, Capacity I.scenario (flatnonzero v))
    {name : Atom → String} {E : Env Mon} (hE : I.lpEnv name = some E) (solver : Args → SolverOut) (h : List (Call Mon)) {P : List Nat → Rat} {shared : Bool} {c : Call Mon}
    (hc : I.setDistribution P false shared = some c) {a : Args} (ha : solverArgs E (run E solver (h ++ [c])) = some a)
    (hl : a.lower = []) (hu : a.upper = []) (ho : a.objective = []) {f : Flags} {p : Prep F} (hp : prepare f (toSolver I.columns.length a) = some p)
    {y : List F} (hy : Returned f (toSolver I.columns.length a) (fun j => (if f.relaxed then slackVec p.con.cols else dense p.objective : List F).getD j 0) y) :
    -(1 / 100000000 * (I.columns.length : F)) ≤ dictAt (certificate f p I.columns.length y) fun i => T.event (flatnonzero (I.columns.getD i [])) := by
  have h1 := C59_certificate_is_valid_inequality hI T hcap hE solver h hc ha hl hu ho hp hy
  have h2 := LpSolver.C31_dictionary_close (toSolver_ok (F := F) hE solver _ ha) hp y fun i => T.event (flatnonzero (I.columns.getD i []))
  have h3 : ∑ j ∈ Finset.range I.columns.length, |T.event (flatnonzero (I.columns.getD j []))| ≤ (I.columns.length : F) := by
    calc ∑ j ∈ Finset.range I.columns.length, |T.event (flatnonzero (I.columns.getD j []))| ≤ ∑ j ∈ Finset.range I.columns.length, (1 : F) := by
          apply Finset.sum_le_sum
          intro j hj
          have hj' := Finset.mem_range.1 hj
          rw [abs_of_nonneg (T.column_event hI hcap hE hj').2]
          exact T.prob_le_one (columns_joint hI _ (by rw [List.getD_eq_getElem _ _ hj']; exact List.getElem_mem _))
      _ = (I.columns.length : F) := by simp
  have h4 : (1 / 100000000 : F) * ∑ j ∈ Finset.range I.columns.length, |T.event (flatnonzero (I.columns.getD j []))| ≤ 1 / 100000000 * (I.columns.length : F) :=
    mul_le_mul_of_nonneg_left h3 (by norm_num)
  linarith

end Verif.Theory
