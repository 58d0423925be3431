import Verif.SdpSolver.Cert
import Verif.SdpSolver.Witness
/-
C32, the dual: the value of the dual problem handed to the solver bounds the objective of the problem given.
-/
namespace Verif.SdpSolver
open Verif.State

variable {α K : Type} [DecidableEq α] [Field K] [LinearOrder K] [IsStrictOrderedRing K] {n : Nat}

omit [LinearOrder K] [IsStrictOrderedRing K] in
theorem const_eq (P : Prep α K n) (d : Dict α K) : P.const d = lin d (over P.known fun _ => 0) := by
  rw [← row_eq]
  unfold Prep.const Prep.row
  simp

omit [LinearOrder K] [IsStrictOrderedRing K] in
theorem c0_eq (P : Prep α K n) : P.c0 = lin P.objective (over P.known fun _ => 0) := by
  rw [← primalValue_eq]
  unfold Prep.primalValue
  simp

/-- The value of the dual as a combination of the known values. -/
theorem dualValue_eq {fl : Flags α} {hm : Bool} {known : Dict α K} {semi : Dict α (K × α)} {w : Work α K n} {P : Prep α K n} (hw : Clean fl hm known semi w)
    (hP : Final fl.process known semi w P) (Z : Mat n K) (I E : Nat → K) {v : α → K} (hv : ∀ y ∈ known.keys, v y = (Dict.get known y).getD 0) :
    P.dualValue false Z I E = ∑ y ∈ known.keys.toFinset, P.trueEntry Z I E y * v y ∧
    P.dualValue true Z I E = ∑ y ∈ known.keys.toFinset, (P.trueEntry Z I E y - (Dict.get P.objective y).getD 0) * v y := by
  set S : Finset α := known.keys.toFinset ∪ P.vars.toFinset with hSdef
  set u : α → K := over known fun _ => 0 with hu
  have hcov : ∀ y, (y ∉ known.keys → y ∈ P.vars) → y ∈ S := by
    intro y h
    rw [hSdef, Finset.mem_union, List.mem_toFinset, List.mem_toFinset]
    by_cases hk : y ∈ known.keys
    · exact .inl hk
    · exact .inr (h hk)
  have hdis : Disjoint known.keys.toFinset P.vars.toFinset := by
    rw [Finset.disjoint_left]
    intro y hy hy2
    rw [List.mem_toFinset] at hy hy2
    exact hP.vars_unknown y hy2 hy
  have e1 := lin_eq_sum P.objective hP.obj_nodup S (fun y hy => hcov y (hP.obj_vars y hy)) u
  have e2 := inner_masks_sum Z P.masks hP.masks_nodup S (fun y hy => hcov y (hP.masks_vars y hy)) u
  have e3 := rows_sum P.ineqs I hP.ineqs_nodup S (fun d hd y hy => hcov y (hP.ineqs_vars d hd y hy)) u
  have e4 := rows_sum P.eqs E hP.eqs_nodup S (fun d hd y hy => hcov y (hP.eqs_vars d hd y hy)) u
  have hF : inner Z P.F0 = gsum (inner Z) P.masks u := by
    rw [← inner_gsum]
    congr 1
    funext i j
    rw [hu, ← gamma_eq hw hP]
    unfold Prep.gamma
    simp
  have hI : ∀ (rows : List (Dict α K)) (mult : Nat → K), (rows.zipIdx.map fun t => P.const t.1 * mult t.2).sum = (rows.zipIdx.map fun t => mult t.2 * lin t.1 u).sum := by
    intro rows mult
    congr 1
    apply List.map_congr_left
    intro t _
    rw [const_eq, hP.known_eq, mul_comm]
  have hval : ∀ f : α → K, ∑ y ∈ S, f y * u y = ∑ y ∈ known.keys.toFinset, f y * v y := by
    intro f
    rw [hSdef, Finset.sum_union hdis]
    have h0 : ∑ y ∈ P.vars.toFinset, f y * u y = 0 := by
      apply Finset.sum_eq_zero
      intro y hy
      rw [List.mem_toFinset] at hy
      have : has known y = false := by
        rw [Bool.eq_false_iff]; exact fun h => hP.vars_unknown y hy ((has_iff _ _).1 h)
      rw [hu, over_free this, mul_zero]
    rw [h0, add_zero]
    refine Finset.sum_congr rfl fun y hy => ?_
    rw [List.mem_toFinset] at hy
    rw [hv y hy, hu, over_known ((has_iff _ _).2 hy)]
  have hc : P.c0 = lin P.objective u := by rw [c0_eq, hP.known_eq]
  constructor
  · unfold Prep.dualValue
    rw [if_neg (by simp), hI, hI, hF, hc, e1, e2, e3, e4, hval, hval, hval, hval, ← Finset.sum_add_distrib, ← Finset.sum_add_distrib, ← Finset.sum_add_distrib]
    refine Finset.sum_congr rfl fun y _ => ?_
    unfold Prep.trueEntry
    ring
  · unfold Prep.dualValue
    rw [if_pos rfl, hI, hI, hF, e2, e3, e4, hval, hval, hval, zero_add, ← Finset.sum_add_distrib, ← Finset.sum_add_distrib]
    refine Finset.sum_congr rfl fun y _ => ?_
    unfold Prep.trueEntry
    ring

/-- **C32, the dual bounds the objective.** Whatever feasible point of the dual the solver returns, its value is at least the objective at every solution of the problem
given (also when the certificate is wrong, see `C31_sdp_false_with_known_objective`). -/
theorem C32_dual_bounds_objective {fl : Flags α} {inp : Input α K n} (hok : inp.Ok) (hf : fl.feas = false) {P : Prep α K n} (h : prep fl inp = some P)
    {Z : Mat n K} {I E : Nat → K} (hD : P.Dual fl.nonneg Z I E) {v : α → K} (hv : inp.Solves fl.nonneg v 0) :
    lin inp.objective v ≤ P.dualValue false Z I E := by
  have hcl := clean_start hok (fl := fl) (by simp [hf]) (by simp [hf])
  have hs : start fl inp = ⟨baseVars inp, inp.masks.map fun t => (t.1, some t.2), inp.objective, inp.ineqs, inp.eqs⟩ := by
    unfold start; rw [hf]; rfl
  rw [prep_eq] at h
  have hP := final_of hcl h
  have hvars := vars_spec hP hok (fun y => by rw [hs])
  have hsem : Semi inp.semiknown v := hv.semi
  have hb := bound_core hP hD (v := v) ((hP.ineqs v hsem).2 (by rw [hs]; exact hv.ineq)) ((hP.eqs v hsem).2 (by rw [hs]; exact hv.eq))
    (by
      have : (fun i j => gsum (fun F : Mat n K => F i j) P.masks v) = fun i j => inp.momentMatrix v i j - if i = j then 0 else 0 := by
        funext i j
        rw [hP.masks v hsem i j, hs]
        simp only [gsum_some, Input.momentMatrix, ite_self, sub_zero]
      rw [this]
      exact hv.psd)
    (fun hn y hy => hv.sign hn y ((hvars y).1 hy).1)
  rw [hP.objective v hsem, hs] at hb
  rw [(dualValue_eq hcl hP Z I E ((get_known hok.known).2 hv.known)).1]
  exact hb

/-- **C32, the dual of feasibility as optimisation.** The value of every feasible point of the dual bounds the largest `λ` with `Γ - λ·1 ⪰ 0` over the solutions: a dual of
negative value proves that the problem given has no solution. -/
theorem C32_dual_bounds_feasibility {fl : Flags α} {inp : Input α K n} (hok : inp.Ok) (hf : fl.feas = true) (hfr : fl.Fresh inp) (hm : inp.masks ≠ [])
    {P : Prep α K n} (h : prep fl inp = some P) {Z : Mat n K} {I E : Nat → K} (hD : P.Dual false Z I E) {v : α → K} {s : K} (hv : inp.Solves false v s) :
    s ≤ P.dualValue true Z I E := by
  have hb := C31_sdp_feasibility_certificate (known := inp.known) hok hf hfr hm h hD (v := v) (s := s) hv
  have hcl := clean_start hok (fun _ => hfr) (fun _ => hm)
  rw [prep_eq] at h
  have hP := final_of hcl h
  rw [(dualValue_eq hcl hP Z I E ((get_known hok.known).2 hv.known)).2]
  refine hb.trans (le_of_eq ?_)
  unfold Prep.certAt
  rw [hP.known_eq, cert_sum inp.known hok.known]
  refine Finset.sum_congr rfl fun y hy => ?_
  congr 1
  unfold Prep.certEntry Prep.trueEntry
  simp only [if_true]
  cases Dict.get P.masks y <;> simp <;> ring

/-- The hypotheses are met by the problem of `C31_sdp_false_with_known_objective`, where the bound is tight. -/
example : ∃ (inp : Input Nat ℚ 1) (P : Prep Nat ℚ 1) (Z : Mat 1 ℚ) (I E : Nat → ℚ) (v : Nat → ℚ),
    inp.Ok ∧ prep plainFlags inp = some P ∧ P.Dual false Z I E ∧ inp.Solves false v 0 ∧ P.dualValue false Z I E = lin inp.objective v := by
  obtain ⟨inp, P, Z, I, E, v, h1, h2, h3, h4, h5, _⟩ := C31_sdp_false_with_known_objective
  exact ⟨inp, P, Z, I, E, v, h1, h2, h3, h4, h5⟩

end Verif.SdpSolver
