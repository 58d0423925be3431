import Verif.Search.Props
import Verif.EndToEnd.Witness
/-
A concrete search: one party with two outcomes, `P[A=0] = 1/2 + v` for `v` between 0 and 1. The largest value of `v` with a model is 1/2.
-/
namespace Verif.Search
open Verif.Common Verif.Moment Verif.State Verif.Optimize Verif.Scenario Verif.EndToEnd
open Verif.Orbits (flatnonzero)
open Verif.EndToEnd.ClassicalModel (Capacity)

/-- One party, one source. -/
def coin : Input where
  D := { names := [1], dag := [(10, [1])], nonclassicalLatents := [], classicalLatents := [], classicalSources := [] }
  outcomes := [2]
  priv := [1]
  levels := [1]
  allOutcomes := false

theorem coin_accepted : coin.Accepted where
  outcomes_length := rfl
  priv_length := rfl
  parties := by decide
  outcomes_pos := by decide
  priv_pos := by decide
  acyclic := ⟨fun p => p, by decide +kernel⟩

theorem coin_capacity : ∀ v ∈ coin.columns, Capacity coin.scenario (flatnonzero v) := by
  have h : ∀ v ∈ coin.columns, (flatnonzero v).length ≤ 255 := by decide +kernel
  intro v hv
  exact capacity_of_length (h v hv)

/-- The program built for it. -/
def coinEnv : Env Mon := ⟨⟨coin.knowable, coin.doConditional, fun _ => false, Views.atomName coin [['A']]⟩, id, [[], [[0]]], false, [], [[(1, 1)], [(0, 1), (1, -1)]]⟩

theorem coin_env : coin.lpEnv (Views.atomName coin [['A']]) = some coinEnv := by
  have h : ∃ E, coin.lpEnv (Views.atomName coin [['A']]) = some E := by
    have : (coin.lpEnv (Views.atomName coin [['A']])).isSome = true := by decide +kernel
    exact Option.isSome_iff_exists.1 this
  obtain ⟨E, hE⟩ := h
  obtain ⟨eqs, ineqs, -, -, -, -, hEE⟩ := lpEnv_some hE
  have h1 : ((coin.lpEnv (Views.atomName coin [['A']])).map fun E => (E.minEq, E.minIneq)) = some (([] : List (Dict Nat Rat)), ([[(1, 1)], [(0, 1), (1, -1)]] : List (Dict Nat Rat))) := by decide +kernel
  have h2 : coin.monomials = [[], [[0]]] := by decide +kernel
  rw [hE] at h1 ⊢
  rw [hEE] at h1 ⊢
  obtain ⟨h3, h4⟩ := Prod.mk.inj (Option.some.inj h1)
  have h3 : Input.sparseRows eqs = [] := h3
  have h4 : Input.sparseRows ineqs = [[(1, 1)], [(0, 1), (1, -1)]] := h4
  rw [h3, h4, h2]
  rfl

/-- The symbolic values. -/
def coinSym : List (Mon × Expr) := [(one, ⟨[], fun _ => 1⟩), ([[0]], ⟨["v"], fun v => 1 / 2 + v⟩)]

/-- The problem for `P[A=0] = q`. -/
def coinArgs (q : Rat) : Args := ⟨[], [(0, 1), (1, q)], [], [[(1, 1)], [(0, 1), (1, -1)]], [], []⟩

/-- A solver that knows the problems of the search (dual form): the largest slack `s` with `s ≤ q` and `s ≤ 1 - q`. -/
def coinSolver (a : Args) : SolverOut :=
  if a = coinArgs (3 / 2) then ⟨true, "feasible", -1 / 2⟩ else if a = coinArgs (1 / 2) then ⟨true, "feasible", 1 / 2⟩ else if a = coinArgs 1 then ⟨true, "feasible", 0⟩
  else if a = coinArgs (5 / 4) then ⟨true, "feasible", -1 / 4⟩ else if a = coinArgs (101 / 100) then ⟨true, "feasible", -1 / 100⟩ else ⟨false, "unknown", 0⟩

/-- The certificate `1 - P[A=0]`. -/
def coinCert (a : Args) : Option (List (String × Rat)) :=
  if a = coinArgs (3 / 2) ∨ a = coinArgs (1 / 2) ∨ a = coinArgs 1 ∨ a = coinArgs (5 / 4) ∨ a = coinArgs (101 / 100) then some [("1", 1), ("P[A=0]", -1)] else none

theorem coin_point {q : Rat} {y : List ℚ} {d : Rat}
    (h : ((LpSolver.buildTask (searchFlags true true) (toSolver (F := ℚ) 2 (coinArgs q))).map fun t => decide (t.numvar = 4 ∧ t.numcon = 3 ∧
      (∀ i < 3, LpSolver.sat (t.bkc.getD i .fr) (t.blc.getD i 0) (t.buc.getD i 0) (LpSolver.rowAt t.ents (fun j => y.getD j 0) i)) ∧
      (∀ j < 4, LpSolver.sat (t.bkx.getD j .fr) (t.blx.getD j 0) (t.bux.getD j 0) (y.getD j 0)) ∧ t.value (fun j => y.getD j 0) = d)) = some true) :
    ∃ t : LpSolver.Task ℚ, LpSolver.buildTask (searchFlags true true) (toSolver 2 (coinArgs q)) = some t ∧ t.numvar = 4 ∧ t.Feasible (fun j => y.getD j 0) ∧ t.value (fun j => y.getD j 0) = d := by
  obtain ⟨t, ht, hd⟩ := Option.map_eq_some_iff.1 h
  obtain ⟨h1, h2, h3, h4, h5⟩ := of_decide_eq_true hd
  exact ⟨t, ht, h1, ⟨fun i hi => h3 i (by omega), fun j hj => h4 j (by omega)⟩, h5⟩

theorem coin_trusted : Trusted ℚ coin.columns.length true true 0 coinSolver := by
  have hl : coin.columns.length = 2 := by decide +kernel
  rw [hl]
  have key : ∀ {q : Rat} {y : List ℚ} {d : Rat}, (∃ t : LpSolver.Task ℚ, LpSolver.buildTask (searchFlags true true) (toSolver 2 (coinArgs q)) = some t ∧ t.numvar = 4 ∧
      t.Feasible (fun j => y.getD j 0) ∧ t.value (fun j => y.getD j 0) = d) → ∃ t : LpSolver.Task ℚ, LpSolver.buildTask (searchFlags true true) (toSolver 2 (coinArgs q)) = some t ∧
      if (true : Bool) then ∃ y, t.Feasible y ∧ t.value y - 0 ≤ ((d : Rat) : ℚ) else ∀ z, t.Feasible z → t.value z - 0 ≤ ((d : Rat) : ℚ) := by
    rintro q y d ⟨t, h1, -, h2, h3⟩
    exact ⟨t, h1, by rw [if_pos rfl]; exact ⟨_, h2, by rw [h3, sub_zero]⟩⟩
  intro a ha
  unfold coinSolver at ha ⊢
  split at ha
  · subst_vars
    rw [if_pos rfl]
    exact key (coin_point (y := [0, -1, 1, -1]) (by decide +kernel))
  · rename_i n1
    split at ha
    · subst_vars
      rw [if_neg n1, if_pos rfl]
      exact key (coin_point (y := [0, -1, 1, -1]) (by decide +kernel))
    · rename_i n2
      split at ha
      · subst_vars
        rw [if_neg n1, if_neg n2, if_pos rfl]
        exact key (coin_point (y := [0, -1, 1, -1]) (by decide +kernel))
      · rename_i n3
        split at ha
        · subst_vars
          rw [if_neg n1, if_neg n2, if_neg n3, if_pos rfl]
          exact key (coin_point (y := [0, -1, 1, -1]) (by decide +kernel))
        · rename_i n4
          split at ha
          · subst_vars
            rw [if_neg n1, if_neg n2, if_neg n3, if_neg n4, if_pos rfl]
            exact key (coin_point (y := [0, -1, 1, -1]) (by decide +kernel))
          · cases ha

/-- The options: interval [0, 1], tolerance 1/3. -/
def coinOptions : Options := ⟨0, 1, 1 / 100, 1 / 3, 0, 100, false, false, false⟩

/-- The search by bisection returns 3/4, from any state without bounds and objective, here with values and an extra constraint set before. -/
theorem coin_bisection : found (maxBisect coinEnv coinSolver coinCert coinSym coinOptions
    (run coinEnv coinSolver [.setValues [([[0]], some (1 / 3))] false false, .setExtraEq [[([[0]], 1), (one, -1)]], .solve])) = some (3 / 4) := by decide +kernel

/-- For `v` up to 1/2 there is a model: `A` answers 0 with probability `1/2 + v`. -/
def coinModel (v : ℚ) (h0 : 0 ≤ v) (h1 : v ≤ 1 / 2) : ClassicalModel coin.scenario coin.observed Unit ℚ where
  source := fun _ _ => 1
  response := fun _ _ _ a _ => if a = 0 then 1 / 2 + v else if a = 1 then 1 / 2 - v else 0
  source_nonneg := fun _ _ => by norm_num
  source_sum := fun _ => by simp
  response_nonneg := by
    intro p x y a l
    split
    · linarith
    · split
      · linarith
      · exact le_refl _
  response_sum := by
    intro p hp x _ y _ l
    have ho : coin.scenario.outcomes p = 2 := by
      have hp : p < 1 := hp
      obtain rfl : p = 0 := by omega
      rfl
    rw [ho]
    simp [List.range_succ]
    ring
  response_local := fun _ _ _ _ _ _ _ => rfl

theorem coin_agrees (v : ℚ) (h0 : 0 ≤ v) (h1 : v ≤ 1 / 2) : Agrees coinEnv (coinModel v h0 h1).event coinSym v := by
  intro t ht
  have hlex : coin.scenario.lexorder[0]? = some ⟨1, [1], 0, 0⟩ := by decide +kernel
  have hdec : decodeSetting (coin.observed.dims coin.scenario 0) 0 = some [0] := by decide +kernel
  simp only [coinSym, List.mem_cons, List.not_mem_nil, or_false] at ht
  rcases ht with rfl | rfl
  · show valF _ one = ((1 : ℚ) : ℚ)
    simp [valF, one]
  · show valF _ [[0]] = ((1 / 2 + v : ℚ) : ℚ)
    unfold valF
    rw [List.map_singleton, List.prod_singleton]
    unfold ClassicalModel.event
    have : ∀ ν : Copy coin.scenario → Unit, (([0] : List Nat).map fun r => (coinModel v h0 h1).rankResponse r ν).prod = 1 / 2 + v := by
      intro ν
      rw [List.map_singleton, List.prod_singleton]
      unfold ClassicalModel.rankResponse
      rw [hlex]
      show (coinModel v h0 h1).opResponse ⟨1, [1], 0, 0⟩ ν = _
      unfold ClassicalModel.opResponse
      show (match decodeSetting (coin.observed.dims coin.scenario 0) 0 with
        | some (x :: y) => (coinModel v h0 h1).response 0 x y 0 (ClassicalModel.seen ⟨1, [1], 0, 0⟩ ν)
        | _ => 0) = _
      rw [hdec]
      simp [coinModel]
    rw [expect_congr _ this]
    unfold expect
    rw [← Finset.sum_mul]
    have hs := expect_one (fun c : Copy coin.scenario => (coinModel v h0 h1).source c.1) (fun c => (coinModel v h0 h1).source_sum c.1)
    unfold expect at hs
    simp only [mul_one] at hs
    rw [hs, one_mul]

/-- The state before the search. -/
def coinBefore : LpState := run coinEnv coinSolver [.setValues [([[0]], some (1 / 3))] false false, .setExtraEq [[([[0]], 1), (one, -1)]], .solve]

theorem coin_bare : Bare coinBefore := run_bare coinEnv rfl coinSolver _ (by simp [leavesBare])

/-- All hypotheses of the theorems on bisection hold for this search: the value found, 3/4, is not below 1/2 by 1/3 or more, and the search has excluded some value of the parameter in `[3/4, 3/4 + 1/3)`. -/
theorem coin_search : (1 / 2 : Rat) - (coinOptions.xtol + coinOptions.rtol * |3 / 4|) < 3 / 4 ∧ ∃ u : Rat, (u = 3 / 4 ∨ 3 / 4 < u ∧ u - 3 / 4 < coinOptions.xtol + coinOptions.rtol * |3 / 4|) ∧ u ≤ 1 ∧
    ∀ (Λ : Type) [Fintype Λ] (M : ClassicalModel coin.scenario coin.observed Λ ℚ), ¬ Agrees coinEnv M.event coinSym u := by
  have hδ : (0 : ℚ) < ((coinOptions.precision / 2048 : Rat) : ℚ) := by norm_num [coinOptions]
  constructor
  · exact C64_bisection_not_below_classical coin_accepted coin_capacity coin_env coin_trusted (by norm_num [coinOptions]) hδ (by norm_num [coinOptions]) (by norm_num [coinOptions])
      (by norm_num [coinOptions]) coin_bare coin_bisection (fun u hu0 hu1 => ⟨Unit, inferInstance, coinModel u hu0 hu1, (fun h => by cases h), coin_agrees u hu0 hu1⟩)
  · obtain ⟨-, -, u, h1, h2, h3⟩ := C64_bisection_excludes_classical coin_accepted coin_capacity coin_env coin_trusted (by norm_num [coinOptions]) hδ (by norm_num [coinOptions]) coin_bare coin_bisection
    exact ⟨u, h1, h2, fun Λ _ M => h3 Λ M (by intro h; cases h)⟩

/-! ### Certificates -/

theorem coin_multipliers {q : Rat} (hb : ((LpSolver.prepare (searchFlags true true) (toSolver (F := ℚ) 2 (coinArgs q))).map fun p =>
      (LpSolver.certificate (searchFlags true true) p 2 [0, -1, 1, -1], LpSolver.certData (searchFlags true true) p [0, -1, 1, -1])) = some ([(0, 1), (1, -1)], [1, -1, 0]))
    (h : ∃ t : LpSolver.Task ℚ, LpSolver.buildTask (searchFlags true true) (toSolver 2 (coinArgs q)) = some t ∧ t.numvar = 4 ∧
      t.Feasible (fun j => ([0, -1, 1, -1] : List ℚ).getD j 0) ∧ t.value (fun j => ([0, -1, 1, -1] : List ℚ).getD j 0) = d) :
    ∃ (p : LpSolver.Prep ℚ) (y : List ℚ), LpSolver.prepare (searchFlags true true) (toSolver 2 (coinArgs q)) = some p ∧
      LpSolver.Returned (searchFlags true true) (toSolver 2 (coinArgs q)) (fun j => (LpSolver.slackVec p.con.cols : List ℚ).getD j 0) y ∧
      (∀ j, j < 2 → LpSolver.isClose0 ((LpSolver.certData (searchFlags true true) p y).getD j 0) = true → (LpSolver.certData (searchFlags true true) p y).getD j 0 = 0) ∧
      ([("1", 1), ("P[A=0]", -1)] : List (String × Rat)).map (fun t => (t.1, ((t.2 : Rat) : ℚ))) =
        (LpSolver.certificate (searchFlags true true) p 2 y).map fun t => (Views.nameOf coinEnv (coinEnv.monomials.getD t.1 one), t.2) := by
  obtain ⟨p, hp, he⟩ := Option.map_eq_some_iff.1 hb
  obtain ⟨t, ht, hn, hf, -⟩ := h
  obtain ⟨e1, e2⟩ := Prod.mk.inj he
  refine ⟨p, [0, -1, 1, -1], hp, ⟨t, ht, by rw [if_pos (by rfl)]; exact ⟨by rw [hn]; decide, hf⟩⟩, ?_, ?_⟩
  · rw [e2]
    decide +kernel
  · rw [e1]
    decide +kernel

theorem coin_certificates : TrustedCertificate ℚ coinEnv coin.columns.length true true coinCert := by
  have hl : coin.columns.length = 2 := by decide +kernel
  rw [hl]
  intro a c hc
  unfold coinCert at hc
  split at hc
  · rename_i h
    rw [← Option.some.inj hc]
    rcases h with rfl | rfl | rfl | rfl | rfl
    · exact coin_multipliers (by decide +kernel) (coin_point (d := -1 / 2) (by decide +kernel))
    · exact coin_multipliers (by decide +kernel) (coin_point (d := 1 / 2) (by decide +kernel))
    · exact coin_multipliers (by decide +kernel) (coin_point (d := 0) (by decide +kernel))
    · exact coin_multipliers (by decide +kernel) (coin_point (d := -1 / 4) (by decide +kernel))
    · exact coin_multipliers (by decide +kernel) (coin_point (d := -1 / 100) (by decide +kernel))
  · cases hc

/-- The inner optimisation for the two kinds of certificates that occur. -/
def coinMinimize (g : Rat → Rat) : Rat := if 0 ≤ g 1 then 1 else 1 / 2

/-- The search with certificates returns 1/2. -/
theorem coin_dual : ((maxDual coinEnv coinSolver coinCert (Views.nameOf coinEnv) coinSym coinMinimize coinOptions 10 coinBefore).map fun r => r.1) =
    some (some (1 / 2, [(1, 1 / 2), (51 / 100, 1 / 2)])) := by decide +kernel

/-- The certificate as a function of the parameter: `1 - (1/2 + v)`, wherever there is one. -/
theorem coin_function (v : Rat) (g : Rat → Rat) (h : certFunction (symbolNames (Views.nameOf coinEnv) coinSym) ((oracle coinEnv coinSolver coinCert coinSym coinOptions coinBefore).certificate v) = some g) :
    (∀ p, g p = 1 / 2 - p) ∨ ∀ p, g p = 0 := by
  have hc : (oracle coinEnv coinSolver coinCert coinSym coinOptions coinBefore).certificate v = [("1", 1), ("P[A=0]", -1)] ∨
      (oracle coinEnv coinSolver coinCert coinSym coinOptions coinBefore).certificate v = [] := by
    simp only [oracle, certificateOf]
    cases solverArgs coinEnv (solvedAt coinEnv coinSolver coinSym coinOptions.lpi coinOptions.only v coinBefore) with
    | none => right; rfl
    | some a =>
      simp only [Option.bind_some]
      unfold coinCert
      split
      · left; rfl
      · right; rfl
  rcases hc with hc | hc
  · left
    intro p
    rw [hc] at h
    rw [certFunction_eq _ _ h]
    have e1 : symbolNames (Views.nameOf coinEnv) coinSym "1" = some fun _ => 1 := by
      have n1 : Views.nameOf coinEnv one = "1" := by decide +kernel
      have n2 : Views.nameOf coinEnv [[0]] = "P[A=0]" := by decide +kernel
      simp [symbolNames, coinSym, n1, n2, Dict.set, Dict.get]
    have e2 : symbolNames (Views.nameOf coinEnv) coinSym "P[A=0]" = some fun v => 1 / 2 + v := by
      have n1 : Views.nameOf coinEnv one = "1" := by decide +kernel
      have n2 : Views.nameOf coinEnv [[0]] = "P[A=0]" := by decide +kernel
      simp [symbolNames, coinSym, n1, n2, Dict.set, Dict.get]
    simp [e1, e2]
    ring
  · right
    intro p
    rw [hc] at h
    rw [certFunction_eq _ _ h]
    rfl

/-- The inner optimisation does what the theorem requires. -/
theorem coin_inner (v : Rat) (g : Rat → Rat) (h : certFunction (symbolNames (Views.nameOf coinEnv) coinSym) ((oracle coinEnv coinSolver coinCert coinSym coinOptions coinBefore).certificate v) = some g) :
    IsGlobalMax coinOptions.b0 coinOptions.b1 g (coinMinimize g) := by
  show IsGlobalMax 0 1 g _
  unfold coinMinimize
  rcases coin_function v g h with hg | hg
  · rw [if_neg (by rw [hg]; norm_num)]
    refine ⟨by norm_num, by norm_num, fun y _ _ hy => ?_⟩
    rw [hg] at hy
    linarith
  · rw [if_pos (by rw [hg])]
    exact ⟨by norm_num, by norm_num, fun y _ h1 _ => h1⟩

/-- All hypotheses of the theorem on the search with certificates hold for this search: parameters with a model are at most the value returned, 1/2 (which is the largest one). -/
theorem coin_search_dual {p : Rat} (h0 : 0 ≤ p) (h1 : p ≤ 1) {Λ : Type} [Fintype Λ] (M : ClassicalModel coin.scenario coin.observed Λ ℚ) (hM : Agrees coinEnv M.event coinSym p) : p ≤ 1 / 2 := by
  obtain ⟨⟨r, s'⟩, h, e⟩ := Option.map_eq_some_iff.1 coin_dual
  have e : r = some (1 / 2, [(1, 1 / 2), (51 / 100, 1 / 2)]) := e
  subst e
  have hsym : ∀ t ∈ coinSym, t.1 ∈ coin.monomials := by
    have h2 : coin.monomials = [[], [[0]]] := by decide +kernel
    rw [h2]
    simp [coinSym, one]
  exact (C64_certificates_not_below_classical coin_accepted coin_capacity (names := [['A']]) (by decide +kernel) coin_env coin_certificates hsym rfl coin_bare coin_inner h h0 h1 M hM).1

/-! ### What can go wrong -/

/-- **C64, a pending minimisation breaks the search.** `set_objective(None, "min")` removes the objective but leaves the direction, and the objective value reported is then minus the slack: the search, which
returned 3/4 above, raises. -/
theorem C64_pending_minimisation_raises : found (maxBisect coinEnv coinSolver coinCert coinSym coinOptions (run coinEnv coinSolver [.setObjective none false])) = none ∧
    found (maxBisect coinEnv coinSolver coinCert coinSym coinOptions (run coinEnv coinSolver [.setObjective none true])) = some (3 / 4) := by decide +kernel

/-- **C64, extra constraints set before the search have no effect**: with the extra constraint `P[A=0] = 1` only `v = 1/2` would be feasible, and the search by itself would raise, as the lower end of the
interval is not; but the values set in the search remove it, and the result is the one without it. -/
theorem C64_extra_constraints_ignored : found (maxBisect coinEnv coinSolver coinCert coinSym coinOptions (run coinEnv coinSolver [.setExtraEq [[([[0]], 1), (one, -1)]]])) = some (3 / 4) ∧
    (run coinEnv coinSolver [.setExtraEq [[([[0]], 1), (one, -1)]]]).extraEq ≠ [] ∧
    (maxBisect coinEnv coinSolver coinCert coinSym coinOptions (run coinEnv coinSolver [.setExtraEq [[([[0]], 1), (one, -1)]]])).2.extraEq = [] := by decide +kernel

end Verif.Search
