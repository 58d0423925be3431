import Verif.EndToEnd.Build
import Verif.LpSolver.Dicts
import Verif.LpSolver.CertProps
/-!
From the recorded problem to the arguments of `solveLP_sparse`, and the feasibility of the latter.
-/
namespace Verif.EndToEnd
open Verif.Common Verif.Scenario Verif.Orbits Verif.Components Verif.Moment Verif.State Verif.CollinsGisin
open Verif.Symmetry (lexorderSymmetries)
open Verif.LpSolver (Coo rowsMat rowAt colsValue rowAt_rowsMat rowsMat_inRange ArgsOk VectorOk MatrixOk Solves)
open ClassicalModel (Capacity)

variable {F : Type} [Field F] [LinearOrder F] [IsStrictOrderedRing F]

/-- `_mon_dict_to_coo_vec`, InflationLP.py 1596-1605: one row of `n` columns. -/
def toVec (n : Nat) (d : Dict Nat Rat) : Coo F := ⟨1, n, d.map fun t => (0, t.1, ((t.2 : Rat) : F))⟩

/-- The sparse matrices of `_prepare_solver_matrices`, InflationLP.py 1842-1889: rows stacked, `n` columns. -/
def toMat (n : Nat) (rows : List (Dict Nat Rat)) : Coo F := rowsMat n (rows.map fun r => r.map fun t => (t.1, ((t.2 : Rat) : F)))

/-- What `solve` passes to `solveLP`, InflationLP.py 546-615, 1842-1889 (all arguments are sparse, so `solveLP` passes them on, lp_utils.py 98-100). -/
def toSolver (n : Nat) (a : Args) : Verif.LpSolver.Args F :=
  ⟨toVec n a.objective, toVec n a.known, toMat n a.inequalities, toMat n a.equalities, toVec n a.lower, toVec n a.upper⟩

omit [IsStrictOrderedRing F] in
theorem rowAt_toMat (n : Nat) (rows : List (Dict Nat Rat)) (x : Nat → F) {i : Nat} (hi : i < rows.length) :
    rowAt (toMat n rows : Coo F).ents x i = dictValF (rows[i]'hi) x := by
  have hi' : i < (rows.map fun r => r.map fun t => (t.1, ((t.2 : Rat) : F))).length := by simpa using hi
  unfold toMat
  rw [rowAt_rowsMat n _ x hi', List.getElem_map]
  unfold colsValue dictValF
  rw [List.map_map]
  rfl

omit [IsStrictOrderedRing F] in
/-- Feasibility of the recorded problem is feasibility for the solver. -/
theorem toSolver_solves {n : Nat} {a : Args} {x : Nat → F} (h : FeasibleIn a x) (nonneg : Bool) (hx : ∀ j, j < n → 0 ≤ x j) : Solves n nonneg (toSolver n a : Verif.LpSolver.Args F) x where
  causal := by
    constructor
    · intro i hi
      have hi' : i < a.inequalities.length := by
        have : (toSolver n a : Verif.LpSolver.Args F).ineq.rows = a.inequalities.length := by simp [toSolver, toMat, rowsMat]
        omega
      show 0 ≤ rowAt (toMat n a.inequalities : Coo F).ents x i
      rw [rowAt_toMat n _ x hi']
      exact h.ineqs _ (List.getElem_mem _)
    · intro i hi
      have hi' : i < a.equalities.length := by
        have : (toSolver n a : Verif.LpSolver.Args F).eq.rows = a.equalities.length := by simp [toSolver, toMat, rowsMat]
        omega
      show rowAt (toMat n a.equalities : Coo F).ents x i = 0
      rw [rowAt_toMat n _ x hi']
      exact h.eqs _ (List.getElem_mem _)
  known := by
    intro e he
    obtain ⟨t, ht, rfl⟩ := List.mem_map.1 he
    exact h.known t ht
  bounds := by
    constructor
    · intro e he
      obtain ⟨t, ht, rfl⟩ := List.mem_map.1 he
      exact h.lower t ht
    · intro e he
      obtain ⟨t, ht, rfl⟩ := List.mem_map.1 he
      exact h.upper t ht
  nonneg := fun _ j hj _ => hx j hj

theorem toIdx_lt {K : Type} (E : Env K) (m : Mon) (i : Nat) (h : toIdx E m = some i) : i < E.monomials.length := by
  unfold toIdx at h
  rw [List.findIdx?_eq_some_iff_getElem] at h
  exact h.1

theorem toRow_lt {K : Type} (E : Env K) (d : Dict Mon Rat) (r : Dict Nat Rat) (h : toRow E d = some r) : ∀ t ∈ r, t.1 < E.monomials.length := by
  have hf := Verif.LpSolver.mapM_forall₂ h
  intro t ht
  obtain ⟨i, hi, rfl⟩ := List.getElem_of_mem ht
  have hg := List.forall₂_iff_get.1 hf
  have h2 := hg.2 i (by rw [hg.1]; exact hi) hi
  obtain ⟨j, hj, e⟩ := Option.map_eq_some_iff.1 h2
  have : r[i] = (j, (List.get d ⟨i, by rw [hg.1]; exact hi⟩).2) := e.symm
  rw [this]
  exact toIdx_lt E _ j hj

theorem toRow_nodup {K : Type} (E : Env K) (d : Dict Mon Rat) (r : Dict Nat Rat) (hd : d.keys.Nodup) (h : toRow E d = some r) : (r.map fun t => t.1).Nodup := by
  have hf := Verif.LpSolver.mapM_forall₂ h
  have hk : r.map (fun t => E.monomials.getD t.1 one) = d.keys := by
    unfold Dict.keys
    clear hd h
    induction hf with
    | nil => rfl
    | cons hb _ ih =>
      obtain ⟨j, hj, e⟩ := Option.map_eq_some_iff.1 hb
      rw [List.map_cons, List.map_cons, ih, ← e]
      show E.monomials.getD j one :: _ = _
      rw [toIdx_some E _ j hj]
  rw [← hk] at hd
  have : r.map (fun t => E.monomials.getD t.1 one) = (r.map fun t => t.1).map fun i => E.monomials.getD i one := by rw [List.map_map]; rfl
  rw [this] at hd
  exact hd.of_map _

omit [LinearOrder F] [IsStrictOrderedRing F] in
theorem toVec_ok {K : Type} (E : Env K) (d : Dict Mon Rat) (r : Dict Nat Rat) (hd : d.keys.Nodup) (h : toRow E d = some r) : VectorOk E.monomials.length (toVec E.monomials.length r : Coo F) where
  inRange := by
    intro e he
    obtain ⟨t, ht, rfl⟩ := List.mem_map.1 he
    exact ⟨rfl, toRow_lt E d r h t ht⟩
  cols := le_refl _
  colsIn := by
    intro e he
    obtain ⟨t, ht, rfl⟩ := List.mem_map.1 he
    exact toRow_lt E d r h t ht
  nodup := by
    show (List.map _ (List.map _ r)).Nodup
    rw [List.map_map]
    exact toRow_nodup E d r hd h

omit [LinearOrder F] [IsStrictOrderedRing F] in
theorem toMat_ok {n : Nat} {rows : List (Dict Nat Rat)} (h : ∀ r ∈ rows, ∀ t ∈ r, t.1 < n) : MatrixOk n (toMat n rows : Coo F) where
  inRange := by
    have := rowsMat_inRange (n := n) (rows := rows.map fun r => r.map fun t => (t.1, ((t.2 : Rat) : F))) ?_
    · intro e he
      exact this e he
    · intro row hrow t ht
      obtain ⟨r, hr, rfl⟩ := List.mem_map.1 hrow
      obtain ⟨u, hu, rfl⟩ := List.mem_map.1 ht
      exact h r hr u hu
  cols := .inr rfl
  colsLe := le_refl _

theorem sanitiseDict_nodup {K : Type} (E : Env K) (d : List (K × Rat)) : (sanitiseDict E d).keys.Nodup := by
  unfold sanitiseDict
  have key : ∀ out : Dict Mon Rat, out.keys.Nodup →
      (d.foldl (fun out t => if isClose0 t.2 then out else out.set (E.san t.1) ((out.get (E.san t.1)).getD 0 + t.2)) out).keys.Nodup := by
    induction d with
    | nil => intro out h; exact h
    | cons t d ih =>
      intro out h
      rw [List.foldl_cons]
      apply ih
      split
      · exact h
      · exact nodup_set _ _ _ h
  exact key [] (by simp [Dict.keys])

theorem update_objective {K : Type} (E : Env K) (v : List (K × Option Rat)) (lpi o : Bool) (s : LpState) : (updateValues E v lpi o s).objective = s.objective := by
  unfold updateValues cleanup
  dsimp only
  split
  · rfl
  · split <;> split <;> rfl

theorem setValues_objective {K : Type} (E : Env K) (v : List (K × Option Rat)) (lpi o : Bool) (s : LpState) : (setValues E v lpi o s).objective = s.objective := by
  unfold setValues
  dsimp only
  split
  · unfold cleanup
    dsimp only
    split <;> rfl
  · exact update_objective E v lpi o _

/-- The objective has distinct monomials in every reachable state. -/
theorem run_objective_nodup {K : Type} (E : Env K) (solver : Args → SolverOut) (h : List (Call K)) : (run E solver h).objective.keys.Nodup := by
  refine run_induction E solver (fun s => s.objective.keys.Nodup) ?_ ?_ h
  · unfold init
    rw [setValues_objective]
    simp [setObjective, resetObjective, Dict.keys]
  · intro s c hs
    cases c with
    | setValues v lpi o => show (setValues E v lpi o s).objective.keys.Nodup; rw [setValues_objective]; exact hs
    | updateValues v lpi o => show (updateValues E v lpi o s).objective.keys.Nodup; rw [update_objective]; exact hs
    | setObjective o m =>
      cases o with
      | none => simp [step, setObjective, resetObjective, Dict.keys]
      | some d =>
        show (Dict.keys ((sanitiseDict E d).map fun t => (t.1, (if m then 1 else -1) * t.2))).Nodup
        unfold Dict.keys
        rw [List.map_map]
        exact sanitiseDict_nodup E d
    | setLower b =>
      show (setLower E b s).objective.keys.Nodup
      unfold setLower
      split
      · exact hs
      · split <;> exact hs
    | setUpper b =>
      show (setUpper E b s).objective.keys.Nodup
      unfold setUpper
      split
      · exact hs
      · split <;> exact hs
    | setExtraEq l => exact hs
    | setExtraIneq l => exact hs
    | reset w => cases w <;> first | exact hs | simp [step, reset, resetObjective, resetValues, resetSolution, Dict.keys]
    | solve =>
      show (solve E solver s).objective.keys.Nodup
      unfold solve
      split <;> exact hs
    | readEqByName =>
      obtain ⟨c, hc⟩ := eqByName_fst E s
      show (eqByName E s).2.objective.keys.Nodup
      rw [hc]; exact hs
    | readIneqByName =>
      obtain ⟨c, hc⟩ := ineqByName_fst E s
      show (ineqByName E s).2.objective.keys.Nodup
      rw [hc]; exact hs
    | prepareArguments b =>
      obtain ⟨c, c', hc⟩ := argsByName_fst E b s
      show (argsByName E b s).2.2.objective.keys.Nodup
      rw [hc]; exact hs

variable {I : Input}

omit [LinearOrder F] [IsStrictOrderedRing F] in
/-- What reaches the solver is well formed. -/
theorem toSolver_ok {name : Atom → String} {E : Env Mon} (hE : I.lpEnv name = some E) (solver : Args → SolverOut) (h : List (Call Mon)) {a : Args}
    (ha : solverArgs E (run E solver h) = some a) : ArgsOk I.columns.length (toSolver I.columns.length a : Verif.LpSolver.Args F) := by
  have hg := run_good E solver h
  have hgo := run_objective_nodup E solver h
  generalize run E solver h = s at *
  obtain ⟨xe, se, xi, h1, h2, h3, h4, h5, h6, h7, h8, h9⟩ := solverArgs_some E s a ha
  obtain ⟨eqs, ineqs, e1, e2, e3, _, hEE⟩ := lpEnv_some hE
  have hlen : E.monomials.length = I.columns.length := by rw [hEE]; exact monomials_length
  have hmin : ∀ rows : List (List (Int × Nat)), (∀ row ∈ rows, ∀ t ∈ row, t.2 < I.columns.length) → ∀ r ∈ Input.sparseRows rows, ∀ t ∈ r, t.1 < I.columns.length := by
    intro rows hr r hrr t ht
    obtain ⟨row, hrow, rfl⟩ := List.mem_map.1 hrr
    obtain ⟨u, hu, rfl⟩ := List.mem_map.1 ht
    exact hr row hrow u hu
  have hx : ∀ (l : List (Dict Mon Rat)) (r : List (Dict Nat Rat)), l.mapM (toRow E) = some r → ∀ row ∈ r, ∀ t ∈ row, t.1 < I.columns.length := by
    intro l r hr row hrow t ht
    have hf := List.forall₂_iff_get.1 (Verif.LpSolver.mapM_forall₂ hr)
    obtain ⟨i, hi, rfl⟩ := List.getElem_of_mem hrow
    rw [← hlen]
    exact toRow_lt E _ _ (hf.2 i (by rw [hf.1]; exact hi) hi) t ht
  refine ⟨?_, toMat_ok ?_, toMat_ok ?_, ?_, ?_, ?_, ?_, .inr rfl⟩
  · rw [← monomials_length]
    cases hm : I.monomials with
    | nil => rw [hm] at e3; simp at e3
    | cons _ _ => simp
  · rw [h9]
    intro r hr
    rcases List.mem_append.1 hr with hr | hr
    · rw [hEE] at hr
      exact hmin ineqs (inequalities_columns e2) r hr
    · exact hx _ _ h3 r hr
  · rw [h8]
    intro r hr
    rcases List.mem_append.1 hr with hr | hr
    · rcases List.mem_append.1 hr with hr | hr
      · rw [hEE] at hr
        exact hmin eqs (equalities_columns e1) r hr
      · exact hx _ _ h1 r hr
    · have hf := List.forall₂_iff_get.1 (Verif.LpSolver.mapM_forall₂ h2)
      obtain ⟨i, hi, rfl⟩ := List.getElem_of_mem hr
      have := hf.2 i (by rw [hf.1]; exact hi) hi
      unfold semiRow at this
      simp only [Option.bind_eq_some_iff, Option.map_eq_some_iff] at this
      obtain ⟨p, hp, q, hq, e⟩ := this
      have e' : se[i] = [(p, 1), (q, -((List.get s.semi ⟨i, by rw [hf.1]; exact hi⟩).2.1))] := e.symm
      rw [e']
      intro t ht
      simp only [List.mem_cons, List.not_mem_nil, or_false] at ht
      rcases ht with rfl | rfl
      · rw [← hlen]; exact toIdx_lt E _ _ hp
      · rw [← hlen]; exact toIdx_lt E _ _ hq
  · have := toVec_ok (F := F) E _ _ hg.known h5; rw [hlen] at this; exact this
  · have := toVec_ok (F := F) E _ _ hg.lower h6; rw [hlen] at this; exact this
  · have := toVec_ok (F := F) E _ _ hg.upper h7; rw [hlen] at this; exact this
  · have := toVec_ok (F := F) E _ _ hgo h4; rw [hlen] at this; exact this

end Verif.EndToEnd
