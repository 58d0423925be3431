import Verif.Mixture.Closed
/-!
`set_distribution(shared_randomness=True)` raises no exception for mixtures of what the causal structure can produce.
-/
namespace Verif.Mixture
open Verif.Common Verif.Canon Verif.Scenario Verif.Moment Verif.SdpEnd Verif.SdpNames Verif.Hierarchy Verif.Generate Verif.Physical
open Verif.State (Dict Mon mem_keys)
open Verif.SdpState (Call Args SolverOut valuesOf)
open Verif.EndToEnd (CausalModel WellFormed toClassical_realises)
open Verif.Columns (npaSpecs localSpecs)

variable {I : EndToEnd.Input} {ch : Choice} {name : Atom → String} {cols : List (List Nat)} {B : Built}

/-- If some assignment fulfils the requirements of a distribution, `set_distribution` raises no exception. -/
theorem ok_of_fulfils (hV : Setup I cols ch name B) {P : List Nat → Rat} {c : Call Mon} (hc : setDistribution I B P false true = some c) {v : Option Mon → ℝ} {r : ℝ}
    (hv : Fulfils I cols.length B P v r) (solver : Args → SolverOut) : SdpState.Ok B.env solver [c] := by
  have hsup : B.env.supports = false := by obtain ⟨_, _, _, _, _, _, _, _, _, _, henv⟩ := build_some hV.built; rw [henv]
  obtain ⟨w, hw, rfl⟩ := Option.map_eq_some_iff.1 (show Option.map _ _ = _ from hc)
  intro h1 c h2 e
  have : h1 = [] ∧ c = .setValues w false true := by
    cases h1 with
    | nil => exact ⟨rfl, by simpa using (List.cons.inj e).1.symm⟩
    | cons d t => simp at e
  obtain ⟨rfl, rfl⟩ := this
  show (SdpState.setValues B.env w false true (SdpState.init B.env)).2 = none
  obtain ⟨b, e⟩ := SdpState.setValues_eq B.env w false true (SdpState.init B.env)
  obtain ⟨n1, n2⟩ := SdpState.valuesOf_nodup B.env w false true
  have hb := run_bounds (PL := fun m x => m ∈ B.env.hermitian ∧ x = 0) (PU := fun _ _ => False) B.env hsup solver (fun m hm => ⟨hm, rfl⟩) [] (by simp) (by simp)
  rw [e]
  refine cleanup_none B.env hsup n1 (y := fun m => v (some m)) ⟨?_, ?_, ?_⟩ ?_
  · intro m x hm
    have hm : (valuesOf B.env w false true).1.get m = some x := hm
    rw [valuesOf_shared] at hm
    obtain ⟨hg, hx⟩ := (direct_iff hV hw m x).1 hm
    exact hv.given m x hg hx
  · intro m x hm
    obtain ⟨q1, rfl⟩ := hb.lower m x hm
    rw [Rat.cast_zero]
    exact hv.nonneg m q1
  · intro m x hm
    exact (hb.upper m x hm).elim
  · intro m
    show (valuesOf B.env w false true).2.get m = none
    unfold valuesOf
    dsimp only
    split <;> rfl

end Verif.Mixture
