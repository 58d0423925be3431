import Verif.EndToEnd.Dag
import Verif.EndToEnd.CertProps
/-!
C53 for the graph the user draws: what a certificate says about distributions.
-/
namespace Verif.EndToEnd
open Verif.Common Verif.Scenario Verif.Orbits Verif.Components Verif.Moment Verif.State Verif.CollinsGisin
open Verif.LpSolver (Coo Flags buildTask linear prepare Prep Returned certAt certificate dictAt slackVec dense ArgsOk certData)
open ClassicalModel (Capacity)

variable {I : Input} {Λ F : Type} [Fintype Λ] [Field F] [LinearOrder F] [IsStrictOrderedRing F]

/-- **C31, the keys of the certificate.** Without an objective, the certificate only mentions variables whose value was fixed. -/
theorem C31_certificate_keys {n : Nat} {f : Flags} {a : LpSolver.Args F} (h : ArgsOk n a) (ho : a.objective.ents = []) {p : Prep F} (hp : prepare f a = some p) (y : List F) :
    ∀ t ∈ certificate f p n y, ∃ e ∈ a.known.ents, e.2.1 = t.1 := by
  have hs := LpSolver.prepare_spec h hp
  have hcols : n ≤ p.con.cols := by rw [hs.cols]; split <;> omega
  have hlen := LpSolver.certData_length f p y
  intro t ht
  by_contra hne
  push Not at hne
  unfold certificate at ht
  rw [List.mem_filter, List.mem_mapIdx] at ht
  obtain ⟨⟨i, hi, rfl⟩, h2⟩ := ht
  rw [List.length_take] at hi
  have hz := LpSolver.certData_other hs (y := y) (j := i) (by omega) hne
  have h0 : (dense p.objective).getD i 0 = (0 : F) := by
    have he : p.objective.ents = [] := by
      rw [hs.objective]
      split
      · rfl
      · exact List.eq_nil_of_length_eq_zero ((LpSolver.canonicalOrder_length a.objective).trans (by rw [ho]; rfl))
    unfold dense
    rw [he]
    simp
  rw [h0, neg_zero, List.getD_eq_getElem _ _ (by omega)] at hz
  rw [List.getElem_take] at h2
  simp only [hz] at h2
  simp [LpSolver.isClose0] at h2

/-- **C53, evaluating a certificate.** Take the certificate obtained for any distribution `P`, and evaluate it on the values that `set_distribution(Q)` gives to its moments (all of
them must get one). The result is not below minus 10⁻⁸ times the number of moments when some causal model of the graph generates `Q`: a certificate is an inequality for
the distributions of the graph. -/
theorem C53_certificate_on_distribution (hI : I.Accepted) (hD : WellFormed I.D) (M : CausalModel I.D I.outcomes I.priv Λ F) {Q : List Nat → Rat}
    (hQ : M.Generates fun t => ((Q t : Rat) : F)) (hcap : ∀ v ∈ I.columns, Capacity I.scenario (flatnonzero v)) {name : Atom → String} {E : Env Mon} (hE : I.lpEnv name = some E)
    (solver solver' : Args → SolverOut) (h : List (Call Mon)) {P : List Nat → Rat} {shared shared' : Bool} {c c' : Call Mon}
    (hc : I.setDistribution P false shared = some c) {a : Args} (ha : solverArgs E (run E solver (h ++ [c])) = some a)
    (hl : a.lower = []) (hu : a.upper = []) (ho : a.objective = []) {f : Flags} {p : Prep F} (hp : prepare f (toSolver I.columns.length a) = some p)
    {y : List F} (hy : Returned f (toSolver I.columns.length a) (fun j => (if f.relaxed then slackVec p.con.cols else dense p.objective : List F).getD j 0) y)
    (hc' : I.setDistribution Q false shared' = some c') {a' : Args} (ha' : solverArgs E (run E solver' [c']) = some a')
    (hkeys : ∀ t ∈ certificate f p I.columns.length y, t.1 ∈ Dict.keys a'.known) :
    -(1 / 100000000 * (I.columns.length : F)) ≤ dictAt (certificate f p I.columns.length y) fun i => (((Dict.get a'.known i).getD 0 : Rat) : F) := by
  have hR := toClassical_realises hI hD M hQ
  have h1 := C53_reported_certificate hI (M.toClassical hD) hcap hE solver h hc ha hl hu ho hp hy
  obtain ⟨x, hx, hxv, _⟩ := C52_compatible_is_feasible hI (M.toClassical hD) hcap hE solver' [c']
    (by
      intro d hd
      rw [List.mem_singleton] at hd
      subst hd
      exact .distribution hR (by simp) hc') ha'
  refine le_of_le_of_eq h1 ?_
  unfold dictAt
  congr 1
  apply List.map_congr_left
  intro t ht
  dsimp only
  obtain ⟨v, hv⟩ := (mem_keys a'.known t.1).1 (hkeys t ht)
  have hmem : (t.1, v) ∈ a'.known := by
    have : (Dict.keys a'.known).Nodup := by
      obtain ⟨_, _, _, _, _, _, _, h5, _⟩ := solverArgs_some E _ a' ha'
      exact toRow_nodup E _ _ (run_good E solver' [c']).known h5
    exact (get_of_mem _ this _ _).2 hv
  have hlt : t.1 < I.columns.length := by
    obtain ⟨_, _, _, _, _, _, _, h5, _⟩ := solverArgs_some E _ a' ha'
    have := toRow_lt E _ _ h5 _ hmem
    obtain ⟨_, _, _, _, _, _, rfl⟩ := lpEnv_some hE
    rw [← monomials_length]
    exact this
  rw [hv, Option.getD_some, ← (hxv t.1 hlt).1]
  rw [hx.known _ hmem]

/-- **C53, certificates exclude.** If the certificate obtained for the distribution `P`, evaluated on the values of `P` itself, is below minus 10⁻⁸ times the number of moments,
then no classical causal model of the graph, with any finite alphabets and any probabilities in an ordered field, generates `P`. -/
theorem C53_negative_certificate_excludes (hI : I.Accepted) (hD : WellFormed I.D) (hcap : ∀ v ∈ I.columns, Capacity I.scenario (flatnonzero v)) {name : Atom → String} {E : Env Mon}
    (hE : I.lpEnv name = some E) (solver : Args → SolverOut) {P : List Nat → Rat} {shared : Bool} {c : Call Mon}
    (hc : I.setDistribution P false shared = some c) {a : Args} (ha : solverArgs E (run E solver [c]) = some a)
    {f : Flags} {p : Prep F} (hp : prepare f (toSolver I.columns.length a) = some p)
    {y : List F} (hy : Returned f (toSolver I.columns.length a) (fun j => (if f.relaxed then slackVec p.con.cols else dense p.objective : List F).getD j 0) y)
    (hneg : dictAt (certificate f p I.columns.length y) (fun i => (((Dict.get a.known i).getD 0 : Rat) : F)) < -(1 / 100000000 * (I.columns.length : F))) :
    ∀ (Λ : Type) [Fintype Λ] (M : CausalModel I.D I.outcomes I.priv Λ F), ¬ M.Generates fun t => ((P t : Rat) : F) := by
  intro Λ _ M hP
  obtain ⟨v, _, rfl⟩ := Option.map_eq_some_iff.1 (show (Option.map _ _) = _ from hc)
  obtain ⟨hobj, hlow, hupp⟩ := fresh_solverArgs hE ha
  refine absurd hneg (not_lt.2 (C53_certificate_on_distribution hI hD M hP hcap hE solver solver [] hc ha hlow hupp hobj hp hy hc ha ?_))
  intro t ht
  obtain ⟨e, he, he2⟩ := C31_certificate_keys (toSolver_ok hE solver [_] ha) (by simp [toSolver, toVec, hobj]) hp y t ht
  obtain ⟨u, hu, rfl⟩ := List.mem_map.1 he
  exact List.mem_map.2 ⟨u, hu, he2⟩

end Verif.EndToEnd
