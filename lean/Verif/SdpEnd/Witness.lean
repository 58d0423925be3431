import Verif.SdpEnd.ClassicalSound
import Verif.EndToEnd.DagWitness
/-!
Concrete cases of the end-to-end theorems on the SDP: a distribution of the instrumental scenario with an intermediate latent, and a signalling distribution which the certificate of
the SDP excludes.
-/
namespace Verif.SdpEnd
open Verif.Common Verif.Scenario Verif.Orbits Verif.Components Verif.Moment Verif.State Verif.CollinsGisin Verif.EndToEnd Verif.SdpRepr Verif.SymMM Verif.Canon

/-- Every representative is computed with empty dictionaries. -/
def freshChoice (I : Input) : Choice where
  atomOf := fun w => (reprMemo (notcomm I) (orthomat I) (allCommute I) (symmetries I) ⟨[], []⟩ false w).2
  dagger := fun a => if a.all (fun x => decide (x < nOps I)) then (conjugate (notcomm I) (orthomat I) (allCommute I) (symmetries I) ⟨[], []⟩ a).2 else a

theorem reached_nil (I : Input) : Reached I ⟨[], []⟩ := ⟨[], by simp, rfl⟩

theorem freshChoice_computed (I : Input) : (freshChoice I).Computed I where
  atomOf := fun w _ => .direct (reached_nil I)
  dagger := fun a ha => ⟨_, reached_nil I, if_pos (by simpa [InRange] using ha)⟩
  other := fun a ha => if_neg (by simpa [InRange] using ha)

/-- A name for every atom. -/
def letters (a : Atom) : String := String.ofList (a.map fun n => Char.ofNat (97 + n))

/-- A rational model, with real numbers. -/
noncomputable def toReal {D : DagInput} {outcomes priv : List Nat} {Λ : Type} [Fintype Λ] (M : CausalModel D outcomes priv Λ ℚ) : CausalModel D outcomes priv Λ ℝ where
  source := fun u v => ((M.source u v : ℚ) : ℝ)
  latent := M.latent
  response := fun n x o l a => ((M.response n x o l a : ℚ) : ℝ)
  source_nonneg := fun u v => by exact_mod_cast M.source_nonneg u v
  source_sum := fun u => by exact_mod_cast M.source_sum u
  latent_local := M.latent_local
  response_nonneg := fun n x o l a => by exact_mod_cast M.response_nonneg n x o l a
  response_sum := by
    intro p hp x hx o ho l
    have h := congrArg (Rat.castHom ℝ) (M.response_sum p hp x hx o ho l)
    rw [map_list_sum, List.map_map] at h
    simpa [Function.comp_def] using h
  response_local := fun n x o o' l m a h1 h2 => by rw [M.response_local n x o o' l m a h1 h2]

theorem toReal_generates {D : DagInput} {outcomes priv : List Nat} {Λ : Type} [Fintype Λ] {M : CausalModel D outcomes priv Λ ℚ} {P : List Nat → ℚ} (h : M.Generates P) :
    (toReal M).Generates fun t => ((P t : ℚ) : ℝ) := by
  intro a ha x hx
  show ((P (a ++ x) : ℚ) : ℝ) = _
  rw [h a ha x hx]
  unfold CausalModel.prob expect
  show Rat.castHom ℝ _ = _
  rw [map_sum]
  apply Finset.sum_congr rfl
  intro l _
  rw [map_mul, map_prod, map_list_prod, List.map_map]
  rfl

theorem latentInstr_hasSources : HasSources latentInstr.D := by
  intro v hv
  refine ⟨10, by decide, by decide, .inr ⟨20, by decide, (latentInstr_edge _ _).2 (by simp), (latentInstr_edge _ _).2 ?_⟩⟩
  simp [latentInstr] at hv ⊢
  omega

theorem instr_hasSources : HasSources instr.D := by
  intro v hv
  refine ⟨10, by decide, by decide, .inl ((instr_edge _ _).2 ?_)⟩
  simp [instr] at hv ⊢
  omega

/-- The unit, `A` with both settings, `B`, and the products of two of them. -/
def latentCols : List (List Nat) := [[], [1], [3], [5], [6], [1, 5], [1, 6], [3, 5], [3, 6]]

theorem colsOk_of {I : Input} {cols : List (List Nat)} (hlt : ∀ m ∈ cols, ∀ x ∈ m, x < nOps I) (hnd : cols.Nodup)
    (hc : ∀ m ∈ cols, toCanonical (notcomm I) (orthomat I) (allCommute I) true m = m) : ColsOk (nOps I) (notcomm I) (orthomat I) (allCommute I) cols :=
  ⟨hlt, hnd, hc, fun h => (allCommute_iff I).1 h⟩

/-- Decidable form of `EqualitiesProper`. -/
theorem equalitiesProper_of {I : Input} {cols : List (List Nat)} {B : Built} (h : ((indexEqualities I cols B.sym).map fun eqs => eqs.all fun e => decide (e.1 :: e.2).Nodup) = some true) :
    EqualitiesProper I cols B := by
  intro eqs he e hm
  rw [he] at h
  have := List.all_eq_true.1 (Option.some.inj h) e hm
  simpa using this

theorem latent_setup : ∃ B, Setup latentInstr latentCols (freshChoice latentInstr) letters B := by
  have hs : ((build latentInstr latentCols (freshChoice latentInstr) letters).bind fun B =>
      (indexEqualities latentInstr latentCols B.sym).map fun eqs => eqs.all fun e => decide (e.1 :: e.2).Nodup) = some true := by decide +kernel
  obtain ⟨B, hB, he⟩ := Option.bind_eq_some_iff.1 hs
  exact ⟨B, colsOk_of (by decide +kernel) (by decide) (by decide +kernel), by decide +kernel, freshChoice_computed _, hB, equalitiesProper_of he⟩

/-- The hypotheses of C54 are met by the distribution of a causal model with random outcomes, for a relaxation with a 9 × 9 moment matrix; some known values are 1/2. -/
example : ∃ B, Setup latentInstr latentCols (freshChoice latentInstr) letters B ∧
    ∃ c, setDistribution latentInstr B latentArray false false = some c ∧ SdpState.Ok B.env (fun _ => ⟨"feasible", 0⟩) [c] ∧
      ∃ a, SdpState.solverArgs B.env (SdpState.run B.env (fun _ => ⟨"feasible", 0⟩) [c]) = some a ∧ (∃ t ∈ a.known, t.2 = 1 / 2) ∧
        ∃ Q : SdpSolver.Prep (Option Mon) ℝ 9, SdpSolver.prep ⟨false, false, true, fun _ => none⟩ (solverInput 9 B a) = some Q ∧ ∃ x G, Q.Primal false x G ∧ Q.primalValue x = 0 := by
  obtain ⟨B, hV⟩ := latent_setup
  obtain ⟨c, hc, hok, a, ha, h⟩ := C54_distribution_never_excluded latentInstr_accepted latentInstr_wellFormed latentInstr_hasSources (toReal latentModel)
    (toReal_generates latent_generates) hV (by decide) fun _ => ⟨"feasible", 0⟩
  obtain ⟨Q, hQ, hp, _⟩ := h ⟨false, false, true, fun _ => none⟩ rfl (by simp)
  refine ⟨B, hV, c, hc, hok, a, ha, ?_, Q, hQ, hp⟩
  have hk : (((build latentInstr latentCols (freshChoice latentInstr) letters).bind fun B => (setDistribution latentInstr B latentArray false false).bind fun c =>
      SdpState.solverArgs B.env (SdpState.run B.env (fun _ => ⟨"feasible", 0⟩) [c])).map fun a => decide (∃ t ∈ a.known, t.2 = 1 / 2)) = some true := by decide +kernel
  rw [hV.built, Option.bind_some, hc, Option.bind_some, ha] at hk
  exact of_decide_eq_true (Option.some.inj hk)

/-- The unit, `A₀B₀` for setting 0 and `A₀B₁` for setting 1. -/
def signalCols : List (List Nat) := [[], [1, 5], [3, 6]]

theorem signal_setup : ∃ B c a, Setup instr signalCols (freshChoice instr) letters B ∧ setDistribution instr B signalling false false = some c ∧
    SdpState.Ok B.env (fun _ => ⟨"feasible", 0⟩) [c] ∧ SdpState.solverArgs B.env (SdpState.run B.env (fun _ => ⟨"feasible", 0⟩) [c]) = some a ∧
    B.sym = [1, 2, 3, 2, 2, 0, 3, 0, 3] ∧ B.index = [(0, [[0]]), (1, []), (2, [[1, 5]]), (3, [[3, 6]])] ∧
    a = ⟨[([], 0)], [(some [[0]], 0), (some [], 1), (some [[1, 5]], 1), (some [[3, 6]], 1), (none, 1)], [], [], []⟩ := by
  have hs : ((build instr signalCols (freshChoice instr) letters).bind fun B => (indexEqualities instr signalCols B.sym).bind fun eqs =>
      (setDistribution instr B signalling false false).bind fun c => (SdpState.solverArgs B.env (SdpState.run B.env (fun _ => ⟨"feasible", 0⟩) [c])).map fun a =>
        (eqs.all fun e => decide (e.1 :: e.2).Nodup) && (SdpState.call B.env (fun _ => ⟨"feasible", 0⟩) (SdpState.init B.env) c).2.isNone &&
        decide (B.sym = [1, 2, 3, 2, 2, 0, 3, 0, 3]) && decide (B.index = [(0, [[0]]), (1, []), (2, [[1, 5]]), (3, [[3, 6]])]) &&
        decide (a = ⟨[([], 0)], [(some [[0]], 0), (some [], 1), (some [[1, 5]], 1), (some [[3, 6]], 1), (none, 1)], [], [], []⟩)) = some true := by decide +kernel
  obtain ⟨B, hB, h⟩ := Option.bind_eq_some_iff.1 hs
  obtain ⟨eqs, he, h⟩ := Option.bind_eq_some_iff.1 h
  obtain ⟨c, hc, h⟩ := Option.bind_eq_some_iff.1 h
  obtain ⟨a, ha, h⟩ := Option.map_eq_some_iff.1 h
  simp only [Bool.and_eq_true, decide_eq_true_eq] at h
  obtain ⟨⟨⟨⟨h1, hok⟩, h3⟩, h4⟩, h5⟩ := h
  refine ⟨B, c, a, ⟨colsOk_of (by decide +kernel) (by decide) (by decide +kernel), by decide +kernel, freshChoice_computed _, hB, equalitiesProper_of (by rw [he]; exact congrArg some h1)⟩,
    hc, ?_, ha, h3, h4, h5⟩
  intro h1 d h2 e
  rcases h1 with _ | ⟨x, h1⟩
  · obtain ⟨rfl, _⟩ := List.cons.inj e
    exact Option.isNone_iff_eq_none.1 hok
  · simp at e

/-- `v vᵀ` for `v = (1, -1, -1)`. -/
def signalZ : SdpSolver.Mat 3 ℝ := fun i j => (if i = 0 then 1 else -1) * if j = 0 then 1 else -1

theorem signalZ_psd : SdpSolver.PSD signalZ := by
  refine ⟨fun i j => mul_comm _ _, fun v => ?_⟩
  have : SdpSolver.quad signalZ v = (v 0 - v 1 - v 2) ^ 2 := by
    simp only [SdpSolver.quad, Fin.sum_univ_three, signalZ]
    simp
    ring
  rw [this]
  positivity

/-- No classical causal model of the instrumental scenario generates the distribution in which `B` answers `A`'s setting while `A` always answers 0: the certificate which the
multiplier `signalZ` gives, `1 - p(00|0) - p(01|1)`, is -1 on it. -/
example (Λ : Type) [Fintype Λ] (M : CausalModel instr.D instr.outcomes instr.priv Λ ℝ) : ¬ M.Generates fun t => ((signalling t : Rat) : ℝ) := by
  obtain ⟨B, c, a, hV, hc, hok, ha, hsym, hidx, rfl⟩ := signal_setup
  have hP : ∃ T, SdpSolver.prep ⟨false, false, true, fun _ => none⟩ (solverInput 3 B ⟨[([], 0)], [(some [[0]], 0), (some [], 1), (some [[1, 5]], 1), (some [[3, 6]], 1), (none, 1)], [], [], []⟩)
      = some T ∧ T.vars = [] ∧ T.ineqs = [] ∧ T.eqs = [] ∧ T.masks = masks 3 B ∧ T.known = realRow [(some [[0]], 0), (some [], 1), (some [[1, 5]], 1), (some [[3, 6]], 1), (none, 1)] := by
    unfold solverInput masks
    rw [hidx]
    exact ⟨_, rfl, rfl, rfl, rfl, rfl, rfl⟩
  obtain ⟨T, hT, hv, hi, he, hm, hk⟩ := hP
  refine C55_negative_certificate_excludes (solver := fun _ => ⟨"feasible", 0⟩) instr_accepted instr_wellFormed instr_hasSources hV hc hok ha rfl (by simp) hT (Z := signalZ) (mi := fun _ => 0) (me := fun _ => 0)
    ⟨signalZ_psd, by rw [hi]; simp, by rw [hv]; simp, by simp⟩ (tol := 1 / 100000000) (by norm_num) ?_ Λ M
  have hcert : T.certificate false (fun c => decide (|c| ≤ 1 / 100000000)) signalZ (fun _ => 0) (fun _ => 0) = [(some [[0]], 2), (some [], 1), (some [[1, 5]], -1), (some [[3, 6]], -1)] := by
    unfold SdpSolver.Prep.certificate SdpSolver.Prep.certEntry
    rw [hi, he, hm, hk]
    unfold masks
    rw [hidx, hsym]
    simp [realRow, Dict.get, SdpSolver.inner, Fin.sum_univ_three, signalZ]
    norm_num [abs]
  show SdpSolver.certValue (T.certificate false (fun c => decide (|c| ≤ 1 / 100000000)) signalZ (fun _ => 0) fun _ => 0) _ < _
  rw [hcert]
  simp [SdpSolver.certValue, SdpSolver.lin, Dict.get]
  norm_num

end Verif.SdpEnd
