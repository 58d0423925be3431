import Verif.Certificates.ReportProps
import Verif.SdpSolver.Witness

/-!
# Concrete certificates

The hypotheses of the theorems on reported certificates are met, and the constant that is lost when
bounds are set on an SDP.
-/

namespace Verif.Certificates

open Verif.SdpSolver

/-- Moments by name; as in the code, `constant_term` and `1` are different names of equal keys. -/
def exLookup (n : String) : Option (MonObj String) :=
  if n = "constant_term" then some ⟨"1", n, false⟩
  else if n ∈ ["1", "p", "x"] then some ⟨n, n, false⟩ else none

/-- the hypotheses of `C50_report_exact` and `C50_evaluate_close` are met -/
example : NamesOk exLookup ["1", "p"] (fun n => if n = "1" then (1 : ℚ) else 1 / 2)
    (fun k => if k = "1" then 1 else 1 / 2) where
  nodup := by decide
  found := by
    intro n hn
    simp only [List.mem_cons, List.not_mem_nil, or_false] at hn
    rcases hn with rfl | rfl
    · exact ⟨⟨"1", "1", false⟩, by simp [exLookup], by decide +kernel, by simp⟩
    · exact ⟨⟨"p", "p", false⟩, by simp [exLookup], by decide +kernel, by simp⟩
  distinct := by
    intro n hn n' hn' m m' h h' he
    simp only [List.mem_cons, List.not_mem_nil, or_false] at hn hn'
    rcases hn with rfl | rfl <;> rcases hn' with rfl | rfl
    · rfl
    · cases h; cases h'; revert he; decide
    · cases h; cases h'; revert he; decide
    · rfl

/-- a printed certificate: `1-2.0*p` -/
example : stringFromDictSDP (fun q : ℚ => if q = 2 then "2.0" else "1.0") "1"
    [(⟨"1", "1", false⟩, 1), (⟨"p", "p", false⟩, -2)] = some "1.0-2.0*p" := by
  decide +kernel

/-- `Γ = [[1, p], [p, x]]` with `p` known and the upper bound `x ≤ 1/2` set by the user, as prepared by
`InflationSDP._prepare_solver_arguments` (sdp/InflationSDP.py 2146-2179). -/
def boundedSdp : Input String ℚ 2 where
  masks := [("1", fun i j => if i = 0 ∧ j = 0 then 1 else 0),
            ("p", fun i j => if i = j then 0 else 1),
            ("x", fun i j => if i = 1 ∧ j = 1 then 1 else 0),
            ("constant_term", fun _ _ => 0)]
  objective := []
  known := [("1", 1), ("p", 3 / 4), ("constant_term", 1)]
  semiknown := []
  ineqs := [[("x", -1), ("constant_term", 1 / 2)]]
  eqs := []

/-- Names `lambda`, `lambda_`, … -/
def strFlags : Flags String := ⟨false, true, true, fun k => String.ofList ("lambda".toList ++ List.replicate k '_')⟩

/-- The optimal dual matrix at `p = 3/4`. -/
def boundedZ : Mat 2 ℚ := fun i j => if i = 0 then (if j = 0 then 9 / 25 else -12 / 25) else if j = 0 then -12 / 25 else 16 / 25

theorem boundedZ_psd : PSD boundedZ := by
  refine ⟨by decide +kernel, fun v => ?_⟩
  have : quad boundedZ v = (3 / 5 * v 0 - 4 / 5 * v 1) ^ 2 := by
    simp only [quad, Fin.sum_univ_two, boundedZ]
    simp
    ring
  rw [this]
  positivity

/-- **C50 fails for SDPs with user-set bounds.**  The solver's certificate has one entry for the
moment `1` and one for `constant_term`; in the reported dictionary, keyed by equal moment objects, the
second replaces the first.  In the example the solver's certificate is sound, but the reported one is
negative at `p = 1/2`, where the program is feasible. -/
theorem C50_constant_lost :
    ∃ (P : Prep String ℚ 2) (Z : Mat 2 ℚ) (I E : Nat → ℚ) (out : List (MonObj String × ℚ)),
      prep strFlags boundedSdp = some P ∧ P.Dual false Z I E ∧
      certificateAsDict exLookup (P.certificate true close0 Z I E) false 0 0 = some out ∧
      -- the solver's certificate at p = 3/4 proves infeasibility, at p = 1/2 it does not
      P.certAt true Z I E (fun n => if n = "p" then 3 / 4 else 1) < 0 ∧
      0 < P.certAt true Z I E (fun n => if n = "p" then 1 / 2 else 1) ∧
      -- the reported certificate is negative at p = 1/2
      polyValue out (fun k => if k = "p" then 1 / 2 else 1) < 0 ∧
      -- where the program is feasible
      (boundedSdp.withKnown [("1", 1), ("p", 1 / 2), ("constant_term", 1)]).Solves false
        (fun n => if n = "1" ∨ n = "constant_term" then 1 else 1 / 2) 0 := by
  refine ⟨(prep strFlags boundedSdp).get (by decide +kernel), boundedZ, fun _ => 16 / 25, fun _ => 0,
    (certificateAsDict exLookup (((prep strFlags boundedSdp).get (by decide +kernel)).certificate true close0 boundedZ
      (fun _ => 16 / 25) fun _ => 0) false 0 0).get (by decide +kernel), by simp, ?_, by simp, by decide +kernel, by decide +kernel, by decide +kernel, ?_⟩
  · exact ⟨boundedZ_psd, by decide +kernel, fun _ => by decide +kernel, by simp⟩
  · refine ⟨by decide +kernel, by decide +kernel, by decide +kernel, by decide +kernel, ⟨by decide +kernel, fun v => ?_⟩, by simp⟩
    have : quad (fun i j => (boundedSdp.withKnown [("1", 1), ("p", 1 / 2), ("constant_term", 1)]).momentMatrix
        (fun n => if n = "1" ∨ n = "constant_term" then 1 else 1 / 2) i j - if i = j then (0 : ℚ) else 0) v
        = (v 0 + v 1 / 2) ^ 2 + 1 / 4 * v 1 ^ 2 := by
      simp only [quad, Fin.sum_univ_two, boundedSdp, Input.momentMatrix, Input.withKnown]
      simp
      ring
    rw [this]
    positivity

end Verif.Certificates
