import Verif.SdpSearch.Ready
import Verif.SdpEnd.Witness
import Verif.Search.Witness
import Verif.Optimum.Witness
/-
A concrete search with a semidefinite program: one party with two outcomes, `P[A=0] = 1/2 + v` for `v` between 0 and 1, the moment matrix of `1` and `A₀`. The largest value of `v` with a model is 1/2.
-/
namespace Verif.SdpSearch
open Verif.Common Verif.Moment Verif.Optimize Verif.Scenario
open Verif.State (Dict Mon)
open Verif.Search (Expr makeNumerical Options symbolNames symbolsOf coin coin_accepted coinOptions)
open Verif.SdpState hiding Truthful
open Verif.SdpEnd
open Verif.EndToEnd (Input CausalModel WellFormed)
open Verif.Optimum (get_realRow has_realRow properMasks_some)

/-- The columns `1` and `A₀`. -/
def coinCols : List (List Nat) := [[], [1]]

/-- The symbolic values. -/
def coinSym : List (Mon × Expr) := [([], ⟨[], fun _ => 1⟩), ([[1]], ⟨["v"], fun v => 1 / 2 + v⟩)]

/-- The problem for `P[A=0] = q`. -/
def coinArgs (q : Rat) : Args := ⟨[([], 0)], [(some [], 1), (some [[1]], q), (none, 1)], [], [], []⟩

/-- A solver that knows the problems of the search (dual form). -/
def coinSolver (a : Args) : SolverOut :=
  match a.known with
  | [_, t, _] => if a = coinArgs t.2 then ⟨"feasible", (1 - t.2) / 2⟩ else ⟨"unknown", 0⟩
  | _ => ⟨"unknown", 0⟩

/-- The certificate `1/2 - P[A=0]/2`. -/
def coinCert (a : Args) : Option (List (String × Rat)) :=
  match a.known with
  | [_, t, _] => if a = coinArgs t.2 then some [("1", 1 / 2), ("P[A=0]", -1 / 2)] else none
  | _ => none

/-- The names of the moments. -/
def coinName : Option Mon → String
  | none => "constant_term"
  | some [] => "1"
  | some [[1]] => "P[A=0]"
  | some _ => "?"

theorem coin_setup : ∃ B, Setup coin coinCols (freshChoice coin) letters B ∧ B.sym = [1, 2, 2, 2] ∧ B.index = [(1, []), (2, [[1]])] ∧ B.env.moments = [[], [[1]]] ∧
    found (maxBisect B.env coinSolver coinCert coinSym coinOptions (init B.env)) = some (3 / 4) := by
  have hs : ((build coin coinCols (freshChoice coin) letters).bind fun B => (indexEqualities coin coinCols B.sym).map fun eqs =>
        (eqs.all fun e => decide (e.1 :: e.2).Nodup) && decide (B.sym = [1, 2, 2, 2]) && decide (B.index = [(1, []), (2, [[1]])]) && decide (B.env.moments = [[], [[1]]]) &&
        decide (found (maxBisect B.env coinSolver coinCert coinSym coinOptions (init B.env)) = some (3 / 4))) = some true := by decide +kernel
  obtain ⟨B, hB, h⟩ := Option.bind_eq_some_iff.1 hs
  obtain ⟨eqs, he, h⟩ := Option.map_eq_some_iff.1 h
  simp only [Bool.and_eq_true, decide_eq_true_eq] at h
  obtain ⟨⟨⟨⟨h1, h2⟩, h3⟩, h4⟩, h5⟩ := h
  exact ⟨B, ⟨colsOk_of (by decide +kernel) (by decide) (by decide +kernel), by decide +kernel, freshChoice_computed _, hB, equalitiesProper_of (by rw [he]; exact congrArg some h1)⟩, h2, h3, h4, h5⟩

/-- `v vᵀ / 2` for `v = (1, -1)`. -/
noncomputable def coinZ : SdpSolver.Mat 2 ℝ := fun i j => (if i = j then 1 else -1) / 2

theorem coinZ_psd : SdpSolver.PSD coinZ := by
  refine ⟨fun i j => by unfold coinZ; simp [eq_comm], fun v => ?_⟩
  have : SdpSolver.quad coinZ v = (v 0 - v 1) ^ 2 / 2 := by
    simp only [SdpSolver.quad, Fin.sum_univ_two, coinZ]
    simp
    ring
  rw [this]
  positivity

theorem coinSolver_feasible {a : Args} (h : (coinSolver a).status = "feasible") : ∃ q, a = coinArgs q ∧ (coinSolver a).primal = (1 - q) / 2 := by
  unfold coinSolver at h ⊢
  split at h
  · rename_i x t y e
    by_cases he : a = coinArgs t.2
    · exact ⟨t.2, he, by rw [if_pos he]⟩
    · rw [if_neg he] at h
      simp at h
  · simp at h

theorem coinCert_some {a : Args} {c : List (String × Rat)} (h : coinCert a = some c) : ∃ q, a = coinArgs q ∧ c = [("1", 1 / 2), ("P[A=0]", -1 / 2)] := by
  unfold coinCert at h
  split at h
  · rename_i x t y e
    by_cases he : a = coinArgs t.2
    · rw [if_pos he] at h
      exact ⟨t.2, he, (Option.some.inj h).symm⟩
    · rw [if_neg he] at h
      simp at h
  · simp at h

/-- The name of the variable added by `feas_as_optim`. -/
def coinFlags : SdpSolver.Flags (Option Mon) := ⟨false, true, true, fun k => some (List.replicate (k + 2) [7])⟩

theorem coin_prep {B : Built} (hidx : B.index = [(1, []), (2, [[1]])]) (q : Rat) : ∃ T, SdpSolver.prep coinFlags (solverInput 2 B (coinArgs q)) = some T ∧ T.vars = [some [[7], [7]]] ∧ T.ineqs = [] ∧ T.eqs = [] ∧
    T.masks = masks 2 B ++ [(some [[7], [7]], SdpSolver.minusOne)] ∧ T.known = realRow (coinArgs q).known ∧ T.objective = [(some [[7], [7]], 1)] ∧
    T.F0 = SdpSolver.constMat (realRow (coinArgs q).known) ((masks 2 B ++ [(some [[7], [7]], SdpSolver.minusOne)]).map fun t : Option Mon × SdpSolver.Mat 2 ℝ => (t.1, some t.2)) := by
  have hs : SdpSolver.start coinFlags (solverInput 2 B (coinArgs q)) =
      ⟨[some [[7], [7]]], (masks 2 B ++ [(some [[7], [7]], SdpSolver.minusOne)]).map fun t : Option Mon × SdpSolver.Mat 2 ℝ => (t.1, some t.2), [(some [[7], [7]], 1)], [], []⟩ := by
    have hl : SdpSolver.lamName coinFlags (SdpSolver.baseVars (solverInput 2 B (coinArgs q))) = some [[7], [7]] := by
      unfold solverInput masks
      rw [hidx]
      rfl
    have hb : SdpSolver.baseVars (solverInput 2 B (coinArgs q)) = [] := by
      unfold solverInput masks
      rw [hidx]
      rfl
    unfold SdpSolver.start
    dsimp only
    rw [hl, hb]
    unfold solverInput masks
    rw [hidx]
    rfl
  have hp : SdpSolver.properMasks ((masks 2 B ++ [(some [[7], [7]], SdpSolver.minusOne)]).map fun t : Option Mon × SdpSolver.Mat 2 ℝ => (t.1, some t.2)) =
      some (masks 2 B ++ [(some [[7], [7]], SdpSolver.minusOne)]) := properMasks_some _
  refine ⟨⟨[some [[7], [7]]], masks 2 B ++ [(some [[7], [7]], SdpSolver.minusOne)], _, [(some [[7], [7]], 1)], [], [], realRow (coinArgs q).known⟩, ?_, rfl, rfl, rfl, rfl, rfl, rfl, rfl⟩
  unfold SdpSolver.prep
  rw [hs]
  dsimp only
  have e1 : (solverInput 2 B (coinArgs q)).semiknown = [] := rfl
  rw [e1, if_pos (show coinFlags.process = true from rfl)]
  simp only [SdpSolver.elimAll, Option.bind_some]
  rw [hp]
  rfl

theorem coin_fresh (B : Built) (q : Rat) : coinFlags.Fresh (solverInput 2 B (coinArgs q)) := by
  refine ⟨?_, ?_, ?_⟩
  · intro a b h
    have := congrArg List.length (Option.some.inj h)
    simpa using this
  · intro k h
    have h : some (List.replicate (k + 2) [7]) ∈ (realRow (coinArgs q).known).keys := h
    rw [keys_realRow] at h
    simp [coinArgs, Dict.keys, List.replicate_succ] at h
  · intro k t ht
    cases ht

theorem coin_dual {B : Built} {T : SdpSolver.Prep (Option Mon) ℝ 2} (hidx : B.index = [(1, []), (2, [[1]])]) {q : Rat} (hv : T.vars = [some [[7], [7]]]) (hi : T.ineqs = []) (he : T.eqs = [])
    (hm : T.masks = masks 2 B ++ [(some [[7], [7]], SdpSolver.minusOne)]) (hk : T.known = realRow (coinArgs q).known) (ho : T.objective = [(some [[7], [7]], 1)]) : T.Dual false coinZ (fun _ => 0) fun _ => 0 := by
  refine ⟨coinZ_psd, by rw [hi]; simp, fun _ y hy => ?_, by simp⟩
  rw [hv] at hy
  obtain rfl := List.mem_singleton.1 hy
  unfold SdpSolver.Prep.dualLhs SdpSolver.Prep.column
  rw [hi, he, hm, hk, ho, has_realRow]
  unfold masks
  rw [hidx]
  simp [coinArgs, Dict.get, SdpSolver.has, SdpSolver.inner, coinZ, SdpSolver.minusOne]

theorem coin_trusted {B : Built} (hsym : B.sym = [1, 2, 2, 2]) (hidx : B.index = [(1, []), (2, [[1]])]) : Trusted 2 B true 0 coinSolver := by
  intro a _ ha
  obtain ⟨q, rfl, hp⟩ := coinSolver_feasible ha
  obtain ⟨T, hT, hv, hi, he, hm, hk, ho, hF⟩ := coin_prep hidx q
  refine ⟨coinFlags, T, rfl, rfl, coin_fresh B q, hT, ?_⟩
  rw [if_pos rfl]
  refine ⟨coinZ, fun _ => 0, fun _ => 0, coin_dual hidx hv hi he hm hk ho, ?_⟩
  rw [hp]
  have hF : T.F0 = fun i j => if i = 0 ∧ j = 0 then 1 else (q : ℝ) := by
    rw [hF]
    funext i j
    unfold SdpSolver.constMat masks
    rw [hidx, hsym]
    simp only [has_realRow, get_realRow]
    simp [coinArgs, Dict.get, SdpSolver.has, SdpSolver.entry]
    fin_cases i <;> fin_cases j <;> simp
  unfold SdpSolver.Prep.dualValue
  rw [hF, hi, he]
  simp [SdpSolver.inner, Fin.sum_univ_two, coinZ]
  linarith

theorem coin_certificates {B : Built} (hsym : B.sym = [1, 2, 2, 2]) (hidx : B.index = [(1, []), (2, [[1]])]) : TrustedCertificate 2 B coinName coinCert := by
  intro a c _ hc
  obtain ⟨q, rfl, rfl⟩ := coinCert_some hc
  obtain ⟨T, hT, hv, hi, he, hm, hk, ho, hF⟩ := coin_prep hidx q
  have hd := coin_dual hidx hv hi he hm hk ho
  have h0 : T.certEntry true coinZ (fun _ => 0) (fun _ => 0) none = 0 := by
    unfold SdpSolver.Prep.certEntry
    rw [hi, he, hm]
    unfold masks
    rw [hidx]
    simp [Dict.get, SdpSolver.inner]
  have h1 : T.certEntry true coinZ (fun _ => 0) (fun _ => 0) (some []) = 1 / 2 := by
    unfold SdpSolver.Prep.certEntry
    rw [hi, he, hm]
    unfold masks
    rw [hidx, hsym]
    simp [Dict.get, SdpSolver.inner, Fin.sum_univ_two, coinZ]
  have h2 : T.certEntry true coinZ (fun _ => 0) (fun _ => 0) (some [[1]]) = -1 / 2 := by
    unfold SdpSolver.Prep.certEntry
    rw [hi, he, hm]
    unfold masks
    rw [hidx, hsym]
    simp [Dict.get, SdpSolver.inner, Fin.sum_univ_two, coinZ]
    norm_num
  have hk' : T.known = [(some [], (1 : ℝ)), (some [[1]], (q : ℝ)), (none, 1)] := by
    rw [hk]
    simp [realRow, coinArgs]
  refine ⟨coinFlags, T, coinZ, fun _ => 0, fun _ => 0, rfl, rfl, coin_fresh B q, hT, hd, ?_, ?_⟩
  · rw [hk']
    intro t ht
    simp only [List.mem_cons, List.not_mem_nil, or_false] at ht
    rcases ht with rfl | rfl | rfl
    · simp only [h1]
      norm_num [abs]
    · simp only [h2]
      norm_num [abs]
    · intro _
      exact h0
  · unfold SdpSolver.Prep.certificate
    rw [hk']
    simp only [List.map_cons, List.map_nil, h0, h1, h2]
    norm_num [abs, coinName, List.filter]

theorem coin_edge (u v : Nat) : EndToEnd.Edge coin.D u v ↔ u = 10 ∧ v = 1 := by
  unfold EndToEnd.Edge coin
  simp only [List.mem_cons, List.not_mem_nil, or_false, Prod.mk.injEq]
  constructor
  · rintro ⟨cs, ⟨rfl, rfl⟩, h⟩
    simpa using h
  · rintro ⟨rfl, rfl⟩
    exact ⟨_, ⟨rfl, rfl⟩, by simp⟩

theorem coin_wellFormed : WellFormed coin.D where
  keys := by decide
  names := by decide
  latents := by decide
  party := by
    intro u v h hu
    rw [coin_edge] at h
    simp [coin] at h hu ⊢
    omega
  latent := by
    intro u v h hu
    simp [coin] at hu
  source := by
    intro u v h
    rw [coin_edge] at h
    simp [coin] at h ⊢
    omega

theorem coin_hasSources : HasSources coin.D := by
  intro v hv
  refine ⟨10, by decide, by decide, .inl ((coin_edge _ _).2 ?_)⟩
  simpa [coin] using hv

/-- All hypotheses of the theorem on bisection hold for this search, which returns 3/4: some parameter at or above 3/4 has no model. -/
theorem coin_search : ∃ u : Rat, (u = 3 / 4 ∨ 3 / 4 < u ∧ u - 3 / 4 < coinOptions.xtol + coinOptions.rtol * |3 / 4|) ∧ u ≤ 1 ∧
    ∀ (Λ : Type) [Fintype Λ] (M : CausalModel coin.D coin.outcomes coin.priv Λ ℝ), ¬ Agrees (inflated coin_accepted coin_wellFormed coin_hasSources M) coinSym u := by
  obtain ⟨B, hV, hsym, hidx, hmom, hfound⟩ := coin_setup
  obtain ⟨-, -, u, h1, h2, h3⟩ := C66_bisection_excludes_classical coin_accepted coin_wellFormed coin_hasSources hV (ready_nil B coinSolver) (cert := coinCert) (sym := coinSym) (o := coinOptions) rfl
    (coin_trusted hsym hidx) (by norm_num [coinOptions]) (by norm_num [coinOptions]) (by norm_num [coinOptions]) hfound
  exact ⟨u, h1, h2, fun Λ _ M => h3 Λ M (by simp)⟩

/-- `P[A=0] = 1/2 + v`. -/
def coinFamily (v : Rat) (l : List Nat) : Rat := if l = [0, 0] then 1 / 2 + v else if l = [1, 0] then 1 / 2 - v else 0

/-- The symbolic values that `set_distribution` would compute. -/
def coinKnowable : List (Mon × Expr) := [([[1]], ⟨["v"], fun v => 1 / 2 + v⟩)]

theorem coin_family {B : Built} (hB : build coin coinCols (freshChoice coin) letters = some B) : Family coin B coinFamily coinKnowable := by
  intro v
  have h1 : ((build coin coinCols (freshChoice coin) letters).map fun B => (atomicMonomials B).filter fun m => m.all (knowable coin)) = some [[[1]]] := by decide +kernel
  rw [hB] at h1
  have h1 : ((atomicMonomials B).filter fun m => m.all (knowable coin)) = [[[1]]] := Option.some.inj h1
  have h2 : rectified coin [1] = some [⟨1, 0, 0⟩] := by decide +kernel
  have h3 : momentMarginal coin (coinFamily v) [[1]] = some (1 / 2 + v) := by
    unfold momentMarginal
    simp only [List.mapM_cons, List.mapM_nil]
    unfold atomMarginal
    rw [if_neg (by decide), h2]
    simp [Marginal.computeMarginal, coin, Marginal.sumAxes, Marginal.inputList, coinFamily]
  unfold setDistribution distributionValues
  rw [h1]
  simp only [List.mapM_cons, List.mapM_nil, h3]
  rfl

/-- For `v` up to 1/2 there is a model: `A` answers 0 with probability `1/2 + v`. -/
noncomputable def coinModel (v : Rat) (h0 : 0 ≤ v) (h1 : v ≤ 1 / 2) : CausalModel coin.D coin.outcomes coin.priv Unit ℝ where
  source := fun _ _ => 1
  latent := fun _ _ => ()
  response := fun _ _ _ _ a => if a = 0 then 1 / 2 + (v : ℝ) else if a = 1 then 1 / 2 - (v : ℝ) else 0
  source_nonneg := fun _ _ => by norm_num
  source_sum := fun _ => by simp
  latent_local := fun _ _ _ _ => rfl
  response_nonneg := by
    intro n x o l a
    have h0 : (0 : ℝ) ≤ (v : ℝ) := by exact_mod_cast h0
    have h1 : (v : ℝ) ≤ 1 / 2 := by
      have : ((v : Rat) : ℝ) ≤ ((1 / 2 : Rat) : ℝ) := by exact_mod_cast h1
      simpa using this
    split
    · linarith
    · split
      · linarith
      · exact le_refl _
  response_sum := by
    intro p hp x _ o _ l
    have hp : p < 1 := hp
    obtain rfl : p = 0 := by omega
    show (List.map _ (List.range 2)).sum = _
    simp [List.range_succ]
    ring
  response_local := fun _ _ _ _ _ _ _ _ _ => rfl

theorem coin_generates (v : Rat) (h0 : 0 ≤ v) (h1 : v ≤ 1 / 2) : (coinModel v h0 h1).Generates fun t => ((coinFamily v t : Rat) : ℝ) := by
  intro a ha x hx
  have ha' : a = [0] ∨ a = [1] := by
    have : ∀ a ∈ ndindex coin.outcomes, a = [0] ∨ a = [1] := by decide
    exact this a ha
  have hx' : x = [0] := by
    have : ∀ a ∈ ndindex coin.priv, a = [0] := by decide
    exact this x hx
  subst hx'
  unfold CausalModel.prob EndToEnd.expect
  rw [Fintype.sum_unique]
  rcases ha' with rfl | rfl <;> simp [coinModel, coinFamily, coin]

/-- The search for this family returns 3/4; parameters up to 1/2 have models. -/
theorem coin_search_family : (1 / 2 : Rat) - (coinOptions.xtol + coinOptions.rtol * |3 / 4|) < 3 / 4 ∧
    ∃ u : Rat, (u = 3 / 4 ∨ 3 / 4 < u ∧ u - 3 / 4 < coinOptions.xtol + coinOptions.rtol * |3 / 4|) ∧ u ≤ 1 ∧
    ∀ (A : Type) [Fintype A] [DecidableEq A] (N : QuantumNet.QuantumNetwork coin A), ¬ N.Generates fun t => ((coinFamily u t : Rat) : ℂ) := by
  obtain ⟨B, hV, hsym, hidx, hmom, -⟩ := coin_setup
  have hf : ((build coin coinCols (freshChoice coin) letters).map fun B => found (maxBisect B.env coinSolver coinCert coinKnowable coinOptions (init B.env))) = some (some (3 / 4)) := by decide +kernel
  rw [hV.built] at hf
  have hf : found (maxBisect B.env coinSolver coinCert coinKnowable coinOptions (run B.env coinSolver [])) = some (3 / 4) := Option.some.inj hf
  have hfam := coin_family hV.built
  constructor
  · refine C66_bisection_not_below_classical coin_accepted coin_wellFormed coin_hasSources hV (ready_nil B coinSolver) (by intro c hc; cases hc) hfam rfl (coin_trusted hsym hidx)
      (by norm_num [coinOptions]) (by norm_num [coinOptions]) (by norm_num [coinOptions]) (by norm_num [coinOptions]) (by norm_num [coinOptions]) hf fun u h0 h1 => ?_
    exact ⟨Unit, inferInstance, coinModel u h0 h1, coin_generates u h0 h1⟩
  · obtain ⟨-, -, u, h1, h2, h3⟩ := C66_bisection_excludes_quantum_uninflated coin_accepted (by decide) hV (ready_nil B coinSolver) (by intro c hc; cases hc) hfam (cert := coinCert) rfl
      (coin_trusted hsym hidx) (by norm_num [coinOptions]) (by norm_num [coinOptions]) (by norm_num [coinOptions]) hf
    exact ⟨u, h1, h2, h3⟩

theorem coin_names {B : Built} (hmom : B.env.moments = [[], [[1]]]) : NamesDiffer B coinName := by
  intro y z hy hz h
  rw [hmom] at hy hz
  have key : ∀ y : Option Mon, (∀ m, y = some m → m ∈ ([[], [[1]]] : List Mon)) → y = none ∨ y = some [] ∨ y = some [[1]] := by
    intro y hy
    cases y with
    | none => simp
    | some m => simpa using hy m rfl
  rcases key y hy with rfl | rfl | rfl <;> rcases key z hz with rfl | rfl | rfl <;> first | rfl | simp [coinName] at h

theorem coin_inner (g : Rat → Rat) (h : FromCertificate coinName coinCert coinSym g) : IsGlobalMax coinOptions.b0 coinOptions.b1 g (Search.coinMinimize g) := by
  obtain ⟨a, c, hc, hg⟩ := h
  obtain ⟨q, -, rfl⟩ := coinCert_some hc
  have hg' : ∀ p, g p = 1 / 4 - p / 2 := by
    intro p
    rw [certFunction_eq _ _ hg]
    have e1 : symbolNames (fun m => coinName (some m)) coinSym "1" = some fun _ => 1 := by simp [symbolNames, coinSym, coinName, Dict.set, Dict.get]
    have e2 : symbolNames (fun m => coinName (some m)) coinSym "P[A=0]" = some fun v => 1 / 2 + v := by simp [symbolNames, coinSym, coinName, Dict.set, Dict.get]
    simp [e1, e2]
    ring
  show IsGlobalMax 0 1 g _
  unfold Search.coinMinimize
  rw [if_neg (by rw [hg']; norm_num)]
  refine ⟨by norm_num, by norm_num, fun y _ _ hy => ?_⟩
  rw [hg'] at hy
  linarith

/-- All hypotheses of the theorem on the search with certificates hold for this search: parameters with a model are at most the value returned, 1/2. -/
theorem coin_search_dual {p : Rat} (h0 : 0 ≤ p) (h1 : p ≤ 1) {Λ : Type} [Fintype Λ] (M : CausalModel coin.D coin.outcomes coin.priv Λ ℝ)
    (hM : Agrees (inflated coin_accepted coin_wellFormed coin_hasSources M) coinSym p) : p ≤ 1 / 2 := by
  obtain ⟨B, hV, hsym, hidx, hmom, -⟩ := coin_setup
  have hf : ((build coin coinCols (freshChoice coin) letters).bind fun B => (maxDual B.env coinSolver coinCert (fun m => coinName (some m)) coinSym Search.coinMinimize coinOptions 10 (init B.env)).map
    fun r => r.1) = some (some (1 / 2, [(1, 1 / 2), (51 / 100, 1 / 2)])) := by decide +kernel
  rw [hV.built, Option.bind_some] at hf
  obtain ⟨⟨r, s'⟩, h, e⟩ := Option.map_eq_some_iff.1 hf
  have e : r = some (1 / 2, [(1, 1 / 2), (51 / 100, 1 / 2)]) := e
  subst e
  exact (C66_certificates_not_below_classical coin_accepted coin_wellFormed coin_hasSources hV (ready_nil B coinSolver) (coin_names hmom) (coin_certificates hsym hidx)
    (by rw [hmom]; simp [coinSym]) rfl coin_inner h h0 h1 M (by simp) hM).1

/-- **C66, the search leaves a trace.** After the search the default lower bounds of the moments it made known are gone, and `set_values(None)` does not bring them back: the program asks the solver a
different question than a new one. -/
theorem C66_search_leaves_a_trace : ∃ B, Setup coin coinCols (freshChoice coin) letters B ∧
    (solverArgs B.env (init B.env)).isSome = true ∧
    solverArgs B.env (setValues B.env [] false false (maxBisect B.env coinSolver coinCert coinKnowable coinOptions (init B.env)).2).1 ≠ solverArgs B.env (setValues B.env [] false false (init B.env)).1 := by
  obtain ⟨B, hV, -⟩ := coin_setup
  have hf : ((build coin coinCols (freshChoice coin) letters).map fun B => (solverArgs B.env (init B.env)).isSome &&
    decide (solverArgs B.env (setValues B.env [] false false (maxBisect B.env coinSolver coinCert coinKnowable coinOptions (init B.env)).2).1 ≠
      solverArgs B.env (setValues B.env [] false false (init B.env)).1)) = some true := by decide +kernel
  rw [hV.built] at hf
  have hf := Option.some.inj hf
  simp only [Bool.and_eq_true, decide_eq_true_eq] at hf
  exact ⟨B, hV, hf⟩

end Verif.SdpSearch
