import Verif.SdpEnd.Props
/-!
C57: a certificate of the semidefinite program is a valid inequality for the operators of every model of the inflated network.
-/
namespace Verif.SdpEnd
open Verif.Common Verif.Canon Verif.Scenario Verif.Components Verif.Moment Verif.MomentMatrix Verif.Normalization
open Verif.State (Dict Mon)
open Verif.EndToEnd (Input)

variable {I : Input} {R : Type} [Ring R] [StarRing R] [Algebra ℝ R]

/-- The bounds that a call sets are true of the model; nothing is said about values. -/
def BoundsTrue (cval : Mon → ℂ) : SdpState.Call Mon → Prop
  | .setLower (some l) => ∀ t ∈ l, ((t.2 : Rat) : ℝ) ≤ (cval t.1).re ∧ (isClose0 t.2 = true → t.2 = 0)
  | .setUpper (some l) => ∀ t ∈ l, (cval t.1).re ≤ ((t.2 : Rat) : ℝ) ∧ (isClose0 t.2 = true → t.2 = 0)
  | _ => True

/-- The program has been set up and any values have been given to it (not linearised constraints), for example by `set_distribution` with any distribution; bounds are true of the
model `M`, and nothing in the history raised. -/
structure Asked (I : Input) (cols : List (List Nat)) (ch : Choice) (name : Atom → String) (B : Built) (M : InflatedModel I R) (solver : SdpState.Args → SdpState.SolverOut)
    (h : List (SdpState.Call Mon)) (a : SdpState.Args) : Prop where
  setup : Setup I cols ch name B
  bounds : ∀ c ∈ h, BoundsTrue M.moment c
  noLpi : NoLpi h
  ok : SdpState.Ok B.env solver h
  args : SdpState.solverArgs B.env (SdpState.run B.env solver h) = some a

section
variable {cols : List (List Nat)} {ch : Choice} {name : Atom → String} {B : Built} {M : InflatedModel I R} {solver : SdpState.Args → SdpState.SolverOut}
  {h : List (SdpState.Call Mon)} {a : SdpState.Args}


theorem Asked.input_ok (U : Asked I cols ch name B M solver h a) : (solverInput cols.length B a).Ok :=
  SdpEnd.input_ok U.setup (fun d hd => (equalities_hold M U.setup.columns U.setup.copies U.setup.computed U.setup.built U.setup.equalities d hd).1) solver h U.ok U.args
    (separated_of_noLpi (by obtain ⟨_, _, _, _, _, _, _, _, _, _, henv⟩ := build_some U.setup.built; rw [henv]) solver h U.noLpi U.args)

theorem Asked.semi (U : Asked I cols ch name B M solver h a) : a.semi = [] := by
  have hs := semi_nil B.env (by obtain ⟨_, _, _, _, _, _, _, _, _, _, henv⟩ := build_some U.setup.built; rw [henv]) solver h U.noLpi
  have ha := U.args
  unfold SdpState.solverArgs at ha
  split at ha
  swap
  · simp at ha
  have ha := Option.some.inj ha
  subst ha
  apply List.eq_nil_iff_forall_not_mem.2
  intro t ht
  have hg := (State.get_of_mem _ (SdpState.run_good B.env solver h).semi t.1 t.2).1 ht
  rw [hs] at hg
  simp at hg

/-- The known moments of the program with the values of the model. -/
noncomputable def knownOf (M : InflatedModel I R) (a : SdpState.Args) : Dict (Option Mon) ℝ := a.known.map fun t => (t.1, values M t.1)

/-- With the values that the model gives to the known moments, the model solves the program. -/
theorem Asked.solves [StarModule ℝ R] (U : Asked I cols ch name B M solver h a) (hherm : ∀ m ∈ B.env.hermitian, 0 ≤ M.value m) :
    ((solverInput cols.length B a).withKnown (knownOf M a)).Solves false (values M) 0 := by
  have hsup : B.env.supports = false := by obtain ⟨_, _, _, _, _, _, _, _, _, _, henv⟩ := build_some U.setup.built; rw [henv]
  have hsan : B.env.san = id := by obtain ⟨_, _, _, _, _, _, _, _, _, _, henv⟩ := build_some U.setup.built; rw [henv]
  have hb := run_bounds (PL := fun m x => ((x : Rat) : ℝ) ≤ (M.moment m).re ∧ (isClose0 x = true → x = 0))
    (PU := fun m x => (M.moment m).re ≤ ((x : Rat) : ℝ) ∧ (isClose0 x = true → x = 0)) B.env hsup solver (fun m hm => ⟨by simpa [InflatedModel.value] using hherm m hm, fun _ => rfl⟩) h
    (by
      intro c hc l e t ht
      have := U.bounds c hc
      rw [e] at this
      rw [hsan]
      exact this t ht)
    (by
      intro c hc l e t ht
      have := U.bounds c hc
      rw [e] at this
      rw [hsan]
      exact this t ht)
  have hg := SdpState.run_good B.env solver h
  have hsemi := U.semi
  have hk := U.args
  unfold SdpState.solverArgs at hk
  split at hk
  swap
  · simp at hk
  have hk := Option.some.inj hk
  refine ⟨?_, ?_, ?_, ?_, ?_, by simp⟩
  · intro t ht
    obtain ⟨u, hu, rfl⟩ := List.mem_map.1 ht
    rfl
  · intro t ht
    obtain ⟨w, hw, rfl⟩ := List.mem_map.1 ht
    rw [hsemi] at hw
    simp at hw
  · intro d hd
    obtain ⟨r, hr, rfl⟩ := List.mem_map.1 hd
    rw [lin_realRow]
    rw [← hk] at hr
    rcases List.mem_append.1 hr with hr | hr
    · obtain ⟨w, hw, rfl⟩ := List.mem_map.1 hr
      have := hb.lower w.1 w.2 ((State.get_of_mem _ hg.lower w.1 w.2).1 hw)
      rw [lowerRow_value M w this.2]
      exact sub_nonneg.2 this.1
    · obtain ⟨w, hw, rfl⟩ := List.mem_map.1 hr
      have := hb.upper w.1 w.2 ((State.get_of_mem _ hg.upper w.1 w.2).1 hw)
      rw [upperRow_value M w this.2]
      exact sub_nonneg.2 this.1
  · intro d hd
    obtain ⟨r, hr, rfl⟩ := List.mem_map.1 hd
    rw [← hk] at hr
    obtain ⟨w, hw, rfl⟩ := List.mem_map.1 hr
    rw [lin_realRow, ← (equalities_hold M U.setup.columns U.setup.copies U.setup.computed U.setup.built U.setup.equalities w hw).2]
    unfold SdpState.rowOf
    rw [List.map_map]
    rfl
  · have := cell_psd M cols
    convert this using 3 with i j
    rw [show ((solverInput cols.length B a).withKnown (knownOf M a)).momentMatrix (values M) i j = (solverInput cols.length B a).momentMatrix (values M) i j from rfl,
      momentMatrix_eq M U.setup.columns U.setup.copies U.setup.computed U.setup.built]
    split <;> simp

theorem knownOf_keys (M : InflatedModel I R) (a : SdpState.Args) : (knownOf M a).keys = (solverInput cols.length B a).known.keys := by
  show _ = Dict.keys (realRow a.known)
  rw [keys_realRow]
  unfold knownOf State.Dict.keys
  rw [List.map_map]
  rfl

/-- Without semi-known moments the objective is passed on unchanged. -/
theorem prep_objective {α K : Type} [DecidableEq α] [Field K] {n : Nat} {fl : SdpSolver.Flags α} {inp : SdpSolver.Input α K n} (hf : fl.feas = false) (hs : inp.semiknown = [])
    {P : SdpSolver.Prep α K n} (h : SdpSolver.prep fl inp = some P) : P.objective = inp.objective := by
  unfold SdpSolver.prep at h
  rw [hs] at h
  dsimp only at h
  obtain ⟨w, h1, h2⟩ := Option.bind_eq_some_iff.1 h
  have hw : w = SdpSolver.start fl inp := by
    split at h1
    · exact (Option.some.inj h1).symm
    · exact (Option.some.inj h1).symm
  split at h2
  · obtain ⟨Fi, _, rfl⟩ := Option.map_eq_some_iff.1 h2
    rw [hw]
    unfold SdpSolver.start
    rw [hf]
    rfl
  · simp at h2

/-- **C57, a certificate of infeasibility is a valid inequality.** Give the program any values (such as those of any distribution, compatible or not) and solve it without objective;
the certificate built from the multipliers of any feasible point of the dual is non-negative at the moments of every model. What is missing: that the default lower bounds are
true of the model is a hypothesis, see C46 and `C56_primal_is_feasible_partial`. -/
theorem C57_certificate_is_valid_partial [StarModule ℝ R] (U : Asked I cols ch name B M solver h a) (hherm : ∀ m ∈ B.env.hermitian, 0 ≤ M.value m)
    (ho : ∀ t ∈ a.objective, t.2 = 0) {fl : SdpSolver.Flags (Option Mon)} (hf : fl.feas = false) (hn : fl.nonneg = false)
    {P : SdpSolver.Prep (Option Mon) ℝ cols.length} (hP : SdpSolver.prep fl (solverInput cols.length B a) = some P)
    {Z : SdpSolver.Mat cols.length ℝ} {mi me : Nat → ℝ} (hD : P.Dual false Z mi me) : 0 ≤ P.certAt false Z mi me (values M) := by
  have hsk : (solverInput cols.length B a).semiknown = [] := by
    show List.map _ a.semi = []
    rw [U.semi]
    rfl
  have hobj := prep_objective hf hsk hP
  have hzero : ∀ t ∈ (solverInput cols.length B a).objective, t.2 = 0 := by
    intro t ht
    obtain ⟨w, hw, rfl⟩ := List.mem_map.1 ht
    dsimp only
    rw [ho w hw]
    simp
  have hno : P.NoOverlap := by
    intro y _ _
    rw [hobj]
    rcases hg : Dict.get (solverInput cols.length B a).objective y with _ | x
    · rfl
    · exact hzero (y, x) ((State.get_of_mem _ U.input_ok.objective y x).2 hg)
  have h0 : SdpSolver.lin (solverInput cols.length B a).objective (values M) = 0 := by
    unfold SdpSolver.lin
    apply List.sum_eq_zero
    intro x hx
    obtain ⟨t, ht, rfl⟩ := List.mem_map.1 hx
    rw [hzero t ht, zero_mul]
  rw [← h0]
  exact SdpSolver.C31_sdp_certificate_bounds U.input_ok hf hP hno (by rw [hn]; exact hD) (known := knownOf M a) (fun y => by rw [knownOf_keys (cols := cols) (B := B) M a]) (by rw [hn]; exact U.solves hherm)

/-- **C57, a certificate of a feasibility problem solved as an optimisation is a valid inequality.** -/
theorem C57_feasibility_certificate_is_valid_partial [StarModule ℝ R] (U : Asked I cols ch name B M solver h a) (hherm : ∀ m ∈ B.env.hermitian, 0 ≤ M.value m)
    {fl : SdpSolver.Flags (Option Mon)} (hf : fl.feas = true) (hfr : fl.Fresh (solverInput cols.length B a))
    {P : SdpSolver.Prep (Option Mon) ℝ cols.length} (hP : SdpSolver.prep fl (solverInput cols.length B a) = some P)
    {Z : SdpSolver.Mat cols.length ℝ} {mi me : Nat → ℝ} (hD : P.Dual false Z mi me) : 0 ≤ P.certAt true Z mi me (values M) :=
  SdpSolver.C31_sdp_feasibility_certificate U.input_ok hf hfr (masks_ne_nil _ _ _) hP hD (U.solves hherm)

end

end Verif.SdpEnd
