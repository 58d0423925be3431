import Verif.Hierarchy.Transfer
import Verif.SdpState.Objective
import Verif.SdpEnd.Unit
/-!
C75: a larger generating set never gives a weaker relaxation.
-/
namespace Verif.Hierarchy
open Verif.Common Verif.Canon Verif.Canon.Spec Verif.Scenario Verif.Components Verif.Moment Verif.MomentMatrix Verif.SymMM Verif.SdpRepr Verif.SdpEnd Verif.SdpNames Verif.Symmetry Verif.Generate Verif.Physical
open Verif.State (Dict Mon get_set get_none mem_keys get_filter)
open Verif.SdpState (Call Args SolverOut one valuesOf)
open Verif.EndToEnd (Input)

variable {I : Input} {ch : Choice} {name : Atom → String} {cols cols₁ cols₂ : List (List Nat)} {B B₁ B₂ : Built}

/-- The calls made after `set_distribution`. -/
def Later : Call Mon → Prop
  | .setObjective _ _ => True
  | .solve => True
  | _ => False

theorem later_constraints {E : SdpState.Env Mon} (solver : Args → SolverOut) (s : SdpState.St) {c : Call Mon} (hc : Later c) : SameConstraints (SdpState.call E solver s c).1 s := by
  cases c with
  | setObjective o m =>
    show SameConstraints (SdpState.setObjective E o m s).1 s
    unfold SdpState.setObjective
    split
    · exact ⟨rfl, rfl, rfl, rfl⟩
    · rcases o with _ | d
      · exact ⟨rfl, rfl, rfl, rfl⟩
      · dsimp only
        split <;> exact ⟨rfl, rfl, rfl, rfl⟩
  | solve =>
    show SameConstraints (SdpState.solve E solver s).1 s
    unfold SdpState.solve
    split <;> exact ⟨rfl, rfl, rfl, rfl⟩
  | setValues => cases hc
  | updateValues => cases hc
  | setLower => cases hc
  | setUpper => cases hc
  | setExtraEq => cases hc
  | setExtraIneq => cases hc
  | reset => cases hc

theorem run_constraints {E : SdpState.Env Mon} (solver : Args → SolverOut) (c : Call Mon) {l : List (Call Mon)} (hl : ∀ c ∈ l, Later c) :
    SameConstraints (SdpState.run E solver (c :: l)) (SdpState.run E solver [c]) := by
  induction l using List.reverseRecOn with
  | nil => exact ⟨rfl, rfl, rfl, rfl⟩
  | append_singleton l x ih =>
    have h1 := ih fun c hc => hl c (by simp [hc])
    rw [← List.cons_append, SdpState.run_snoc]
    have h2 := later_constraints (E := E) solver (SdpState.run E solver (c :: l)) (hl x (by simp))
    exact ⟨h2.known.trans h1.known, h2.semi.trans h1.semi, h2.lower.trans h1.lower, h2.upper.trans h1.upper⟩

/-- The user's objective is the same in both programs. -/
theorem same_objective {E₁ E₂ : SdpState.Env Mon} (hsan : E₁.san = E₂.san) (hs₁ : E₁.supports = false) (hs₂ : E₂.supports = false) (solver₁ solver₂ : Args → SolverOut) (v₁ v₂ : List (Mon × Option Rat)) (o₁ o₂ : Bool)
    {l : List (Call Mon)} (hl : ∀ c ∈ l, Later c) :
    (SdpState.run E₁ solver₁ (.setValues v₁ false o₁ :: l)).objective = (SdpState.run E₂ solver₂ (.setValues v₂ false o₂ :: l)).objective := by
  have hset : ∀ (E : SdpState.Env Mon), E.supports = false → ∀ (v : List (Mon × Option Rat)) (o : Bool) (s : SdpState.St), SdpState.Good s → (SdpState.setValues E v false o s).1.objective = s.objective := by
    intro E hE v o s hg
    obtain ⟨b, e⟩ := SdpState.setValues_eq E v false o s
    obtain ⟨n1, n2⟩ := SdpState.valuesOf_nodup E v false o
    have hgd : ∀ b, SdpState.Good { SdpState.resetValues E s with known := (valuesOf E v false o).1, semi := (valuesOf E v false o).2, useLpi := b } :=
      fun b => ⟨n1, n2, hg.lower, hg.upper, hg.objective, hg.one⟩
    have hss : ∀ s : SdpState.St, SdpState.supportsStep E s = s := fun s => by unfold SdpState.supportsStep; rw [hE]; simp
    obtain ⟨lo, up, pr, se, q1, _⟩ := SdpState.cleanup_eq E _ (SdpState.supportsStep_good E _ (hgd b))
    rw [e, q1, hss]
    rfl
  have hinit : ∀ (E : SdpState.Env Mon), E.supports = false → (SdpState.init E).objective = [(one, 0)] := fun E hE => Linear.init_objective hE
  induction l using List.reverseRecOn with
  | nil =>
    show (SdpState.setValues E₁ v₁ false o₁ (SdpState.init E₁)).1.objective = (SdpState.setValues E₂ v₂ false o₂ (SdpState.init E₂)).1.objective
    rw [hset _ hs₁ _ _ _ (SdpState.init_good E₁), hset _ hs₂ _ _ _ (SdpState.init_good E₂), hinit _ hs₁, hinit _ hs₂]
  | append_singleton l x ih =>
    have h1 := ih fun c hc => hl c (by simp [hc])
    rw [← List.cons_append, ← List.cons_append, SdpState.run_snoc, SdpState.run_snoc]
    have hx := hl x (by simp)
    generalize SdpState.run E₁ solver₁ (.setValues v₁ false o₁ :: l) = s at h1
    generalize SdpState.run E₂ solver₂ (.setValues v₂ false o₂ :: l) = t at h1
    cases x with
    | setObjective d m =>
      show (SdpState.setObjective E₁ d m s).1.objective = (SdpState.setObjective E₂ d m t).1.objective
      unfold SdpState.setObjective
      rw [hs₁, hs₂]
      simp only [Bool.false_and, Bool.false_eq_true, if_false]
      rcases d with _ | d
      · rfl
      · dsimp only
        have hn : SdpState.newObjective E₁ d m = SdpState.newObjective E₂ d m := by
          unfold SdpState.newObjective SdpState.sanitiseDict
          rw [hsan]
        have hif : ∀ (E : SdpState.Env Mon) (s : SdpState.St) (b : Bool), (if b = true then SdpState.updateObjective s else (s, some SdpState.Err.foreignObjective)).1.objective = s.objective := by
          intro E s b
          cases b <;> rfl
        rw [hif E₁, hif E₂]
        exact hn
    | solve =>
      show (SdpState.solve E₁ solver₁ s).1.objective = (SdpState.solve E₂ solver₂ t).1.objective
      have hso : ∀ (E : SdpState.Env Mon) (solver : Args → SolverOut) (s : SdpState.St), (SdpState.solve E solver s).1.objective = s.objective := by
        intro E solver s
        unfold SdpState.solve
        split <;> rfl
      rw [hso, hso]; exact h1
    | setValues => cases hx
    | updateValues => cases hx
    | setLower => cases hx
    | setUpper => cases hx
    | setExtraEq => cases hx
    | setExtraIneq => cases hx
    | reset => cases hx

theorem args_of {E : SdpState.Env Mon} {s : SdpState.St} {a : Args} (h : SdpState.solverArgs E s = some a) :
    (∀ m ∈ s.known.keys, m ∈ E.moments) ∧ a = ⟨s.processed, (s.known.map fun t => (some t.1, t.2)) ++ [(none, 1)], s.semi, E.minEq.map SdpState.rowOf, s.lower.map SdpState.lowerRow ++ s.upper.map SdpState.upperRow⟩ := by
  unfold SdpState.solverArgs at h
  split at h
  · rename_i h1
    exact ⟨fun m hm => by simpa using List.all_eq_true.1 h1 m hm, (Option.some.inj h).symm⟩
  · cases h

/-- **C75, constraints.** Whatever the two programs were given besides the distribution, an assignment (and a margin) which satisfies the constraints given to the solver with the larger generating set satisfies
those given with the smaller one. -/
theorem constraints_transfer (hch : UsualChoice ch I) (hV₁ : Setup I cols₁ ch name B₁) (hV₂ : Setup I cols₂ ch name B₂) (hsub : ∀ m ∈ cols₁, m ∈ cols₂)
    (hmin : ∀ d ∈ B₁.env.minEq, d ∈ B₂.env.minEq) {P : List Nat → Rat} {o₁ o₂ : Bool} (ho : o₂ = true → o₁ = true) {c₁ c₂ : Call Mon} (hc₁ : setDistribution I B₁ P false o₁ = some c₁) (hc₂ : setDistribution I B₂ P false o₂ = some c₂)
    (solver₁ solver₂ : Args → SolverOut) (hok : SdpState.Ok B₂.env solver₂ [c₂]) {s₁ s₂ : SdpState.St} (hs₁ : SameConstraints s₁ (SdpState.run B₁.env solver₁ [c₁]))
    (hs₂ : SameConstraints s₂ (SdpState.run B₂.env solver₂ [c₂])) {a₁ a₂ : Args} (ha₁ : SdpState.solverArgs B₁.env s₁ = some a₁) (ha₂ : SdpState.solverArgs B₂.env s₂ = some a₂)
    {v : Option Mon → ℝ} {s : ℝ} (h : (solverInput cols₂.length B₂ a₂).Solves false v s) : (solverInput cols₁.length B₁ a₁).Solves false v s := by
  obtain ⟨v₁, hv₁, F₁⟩ := in_force hV₁ hc₁ solver₁
  obtain ⟨v₂, hv₂, F₂⟩ := in_force hV₂ hc₂ solver₂
  have ec₂ : c₂ = .setValues v₂ false o₂ := by
    unfold setDistribution at hc₂
    rw [hv₂] at hc₂
    exact (Option.some.inj hc₂).symm
  subst ec₂
  obtain ⟨km₁, rfl⟩ := args_of ha₁
  obtain ⟨km₂, rfl⟩ := args_of ha₂
  have hknown : ∀ m x, s₂.known.get m = some x → v (some m) = ((x : Rat) : ℝ) := by
    intro m x hx
    exact h.known (some m, (x : ℝ)) (List.mem_map.2 ⟨(some m, x), List.mem_append_left _ (List.mem_map.2 ⟨(m, x), mem_of_get hx, rfl⟩), rfl⟩)
  have hnd₁ : s₁.known.keys.Nodup := by
    rw [hs₁.known]; exact (SdpState.run_good B₁.env solver₁ _).known
  have hk12 : ∀ m x, s₁.known.get m = some x → s₂.known.get m = some x := by
    intro m x hx
    have hm := km₁ m ((mem_keys _ _).2 ⟨x, hx⟩)
    rw [hs₁.known, F₁.known] at hx
    rw [hs₂.known, F₂.known]
    exact known_mono hch hV₁ hV₂ hsub hv₁ hv₂ ho hm hx
  refine solves_restrict hch hV₁ hV₂ hsub h ?_ ?_ ?_ ?_
  · intro t ht
    rcases List.mem_append.1 (show t ∈ (s₁.known.map fun t => (some t.1, t.2)) ++ [(none, 1)] from ht) with ht | ht
    · obtain ⟨u, hu, rfl⟩ := List.mem_map.1 ht
      exact hknown _ _ (hk12 _ _ ((State.get_of_mem _ hnd₁ _ _).1 hu))
    · rw [List.mem_singleton.1 ht]
      exact h.known (none, ((1 : Rat) : ℝ)) (List.mem_map.2 ⟨(none, 1), by simp, rfl⟩)
  · intro t ht
    have ht : t ∈ s₁.semi := ht
    rw [hs₁.semi, F₁.semi] at ht
    cases ht
  · intro d hd
    rcases List.mem_append.1 (show d ∈ s₁.lower.map SdpState.lowerRow ++ s₁.upper.map SdpState.upperRow from hd) with hd | hd
    · obtain ⟨⟨m, x⟩, ht, rfl⟩ := List.mem_map.1 hd
      rw [hs₁.lower] at ht
      obtain ⟨hm, rfl⟩ := F₁.lower m x ((State.get_of_mem _ F₁.nodup _ _).1 ht)
      have hrow : SdpState.lowerRow (m, 0) = [(some m, 1)] := by
        unfold SdpState.lowerRow
        have h0 : isClose0 0 = true := by decide +kernel
        dsimp only
        rw [if_pos h0]
      have hlin : SdpSolver.lin (realRow (SdpState.lowerRow (m, 0))) v = v (some m) := by
        rw [hrow]
        simp [SdpSolver.lin, realRow]
      rw [hlin]
      rcases nonneg_in_force hch hV₂ hv₂ solver₂ hok (hermitian_mono hch hV₁ hV₂ hsub hm) with ⟨x, hx, h0⟩ | hlo
      · rw [← hs₂.known] at hx
        rw [hknown m x hx]
        exact_mod_cast h0
      · rw [← hs₂.lower] at hlo
        have := h.ineq (realRow (SdpState.lowerRow (m, 0))) (List.mem_map.2 ⟨_, List.mem_append_left _ (List.mem_map.2 ⟨(m, 0), mem_of_get hlo, rfl⟩), rfl⟩)
        rw [hlin] at this
        exact this
    · rw [hs₁.upper, F₁.upper] at hd
      cases hd
  · intro d hd
    obtain ⟨r, hr, rfl⟩ := List.mem_map.1 (show d ∈ B₁.env.minEq.map SdpState.rowOf from hd)
    exact h.eq (realRow (SdpState.rowOf r)) (List.mem_map.2 ⟨_, List.mem_map.2 ⟨r, hmin r hr, rfl⟩, rfl⟩)

theorem minEq_network (hnet : I.isNetwork = true) (hV : Setup I cols ch name B) : B.env.minEq = [] := by
  obtain ⟨_, _, _, eqs, _, _, _, _, h4, h5, henv⟩ := build_some hV.built
  unfold indexEqualities at h4
  rw [if_pos hnet] at h4
  have := Option.some.inj h4
  subst this
  exact (Option.some.inj h5).symm

theorem ok_first {E : SdpState.Env Mon} {solver : Args → SolverOut} {c : Call Mon} {l : List (Call Mon)} (h : SdpState.Ok E solver (c :: l)) : SdpState.Ok E solver [c] := by
  intro h1 c' h2 e
  exact h h1 c' (h2 ++ l) (by rw [← List.cons_append, ← List.append_assoc, ← e]; rfl)

/-- The value of the objective given to the solver. -/
theorem objective_lin {n : Nat} (B : Built) (a : Args) (v : Option Mon → ℝ) : SdpSolver.lin (solverInput n B a).objective v = dictR a.objective fun m => v (some m) := by
  unfold SdpSolver.lin dictR
  show ((a.objective.map fun t => (some t.1, ((t.2 : Rat) : ℝ))).map fun t => t.2 * v t.1).sum = _
  rw [List.map_map]
  rfl

/-- At an assignment which satisfies the constraints, the objective given to the solver has the value of the user's objective. -/
theorem objective_value (hV : Setup I cols ch name B) (hone : [] ∈ cols) {P : List Nat → Rat} {o : Bool} {c : Call Mon} (hc : setDistribution I B P false o = some c)
    (solver : Args → SolverOut) {l : List (Call Mon)} (hl : ∀ c ∈ l, Later c) (hok : SdpState.Ok B.env solver (c :: l)) {a : Args} (ha : SdpState.solverArgs B.env (SdpState.run B.env solver (c :: l)) = some a)
    {v : Option Mon → ℝ} {s : ℝ} (h : (solverInput cols.length B a).Solves false v s) :
    SdpSolver.lin (solverInput cols.length B a).objective v = dictR (SdpState.run B.env solver (c :: l)).objective fun m => v (some m) := by
  obtain ⟨w, hw, F⟩ := in_force hV hc solver
  have ec : c = .setValues w false o := by
    unfold setDistribution at hc
    rw [hw] at hc
    exact (Option.some.inj hc).symm
  have hS := run_constraints (E := B.env) solver c hl
  have hf : SdpState.ObjectiveFaithful (SdpState.run B.env solver (c :: l)) := by
    refine SdpState.C43_sdp_objective_partial B.env solver _ hok ?_
    intro x hx e
    subst e
    rcases List.mem_cons.1 hx with h | h
    · rw [ec] at h; cases h
    · exact hl _ h
  obtain ⟨km, rfl⟩ := args_of ha
  rw [objective_lin]
  have hknown : ∀ m x, (SdpState.run B.env solver (c :: l)).known.get m = some x → v (some m) = ((x : Rat) : ℝ) := by
    intro m x hx
    exact h.known (some m, (x : ℝ)) (List.mem_map.2 ⟨(some m, x), List.mem_append_left _ (List.mem_map.2 ⟨(m, x), mem_of_get hx, rfl⟩), rfl⟩)
  have h1 : (SdpState.run B.env solver (c :: l)).known.get [] = some 1 := by
    rw [hS.known, F.known]
    exact short_known o (one_mem hV.columns hV.built hone) (by simp) ((direct_iff hV hw [] 1).2 ⟨.inr (.inl rfl), marginal_one P⟩)
  refine faithful_real hf (fun m => v (some m)) ?_ hknown
  have := hknown [] 1 h1
  rw [Rat.cast_one] at this
  exact this

/-- The use of two programs for the same problem, the generating set of the second of which contains that of the first: `set_distribution` with the same distribution (with `shared_randomness` in the second only if in
the first too), then the same calls of `set_objective` and `solve`. -/
structure Compared (I : Input) (ch : Choice) (name : Atom → String) (cols₁ cols₂ : List (List Nat)) (B₁ B₂ : Built) (P : List Nat → Rat) (shared₁ shared₂ : Bool) (l : List (Call Mon)) (solver₁ solver₂ : Args → SolverOut)
    (a₁ a₂ : Args) : Prop where
  choice : UsualChoice ch I
  setup₁ : Setup I cols₁ ch name B₁
  setup₂ : Setup I cols₂ ch name B₂
  sub : ∀ m ∈ cols₁, m ∈ cols₂
  one : [] ∈ cols₁
  equalities : ∀ d ∈ B₁.env.minEq, d ∈ B₂.env.minEq
  flag : shared₂ = true → shared₁ = true
  later : ∀ c ∈ l, Later c
  asked₁ : ∃ c, setDistribution I B₁ P false shared₁ = some c ∧ SdpState.Ok B₁.env solver₁ (c :: l) ∧ SdpState.solverArgs B₁.env (SdpState.run B₁.env solver₁ (c :: l)) = some a₁
  asked₂ : ∃ c, setDistribution I B₂ P false shared₂ = some c ∧ SdpState.Ok B₂.env solver₂ (c :: l) ∧ SdpState.solverArgs B₂.env (SdpState.run B₂.env solver₂ (c :: l)) = some a₂

variable {P : List Nat → Rat} {shared₁ shared₂ : Bool} {l : List (Call Mon)} {solver₁ solver₂ : Args → SolverOut} {a₁ a₂ : Args}

/-- **C75.** Every assignment which satisfies the program of the larger generating set (with any margin `s` for the smallest eigenvalue) satisfies the program of the smaller one, and both objectives have the same value. -/
theorem C75_larger_is_stronger (U : Compared I ch name cols₁ cols₂ B₁ B₂ P shared₁ shared₂ l solver₁ solver₂ a₁ a₂) {v : Option Mon → ℝ} {s : ℝ} (h : (solverInput cols₂.length B₂ a₂).Solves false v s) :
    (solverInput cols₁.length B₁ a₁).Solves false v s ∧ SdpSolver.lin (solverInput cols₁.length B₁ a₁).objective v = SdpSolver.lin (solverInput cols₂.length B₂ a₂).objective v := by
  obtain ⟨c₁, hc₁, hok₁, ha₁⟩ := U.asked₁
  obtain ⟨c₂, hc₂, hok₂, ha₂⟩ := U.asked₂
  have h1 := constraints_transfer U.choice U.setup₁ U.setup₂ U.sub U.equalities U.flag hc₁ hc₂ solver₁ solver₂ (ok_first hok₂) (run_constraints solver₁ c₁ U.later) (run_constraints solver₂ c₂ U.later) ha₁ ha₂ h
  refine ⟨h1, ?_⟩
  rw [objective_value U.setup₁ U.one hc₁ solver₁ U.later hok₁ ha₁ h1, objective_value U.setup₂ (U.sub _ U.one) hc₂ solver₂ U.later hok₂ ha₂ h]
  obtain ⟨w₁, hw₁, rfl⟩ := Option.map_eq_some_iff.1 (show Option.map _ _ = _ from hc₁)
  obtain ⟨w₂, hw₂, rfl⟩ := Option.map_eq_some_iff.1 (show Option.map _ _ = _ from hc₂)
  obtain ⟨_, _, _, _, _, _, _, _, _, _, e1⟩ := build_some U.setup₁.built
  obtain ⟨_, _, _, _, _, _, _, _, _, _, e2⟩ := build_some U.setup₂.built
  rw [same_objective (E₁ := B₁.env) (E₂ := B₂.env) (by rw [e1, e2]) (by rw [e1]) (by rw [e2]) solver₁ solver₂ w₁ w₂ shared₁ shared₂ U.later]

/-- **C75, exclusion.** A distribution which is infeasible with the smaller generating set is infeasible with the larger one. -/
theorem C75_stays_infeasible (U : Compared I ch name cols₁ cols₂ B₁ B₂ P shared₁ shared₂ l solver₁ solver₂ a₁ a₂) (h : ¬ ∃ v, (solverInput cols₁.length B₁ a₁).Solves false v 0) :
    ¬ ∃ v, (solverInput cols₂.length B₂ a₂).Solves false v 0 := by
  rintro ⟨v, hv⟩
  exact h ⟨v, (C75_larger_is_stronger U hv).1⟩

/-- **C75, feasibility as optimisation.** What bounds the smallest eigenvalue with the smaller generating set bounds it with the larger one. -/
theorem C75_margin (U : Compared I ch name cols₁ cols₂ B₁ B₂ P shared₁ shared₂ l solver₁ solver₂ a₁ a₂) {s : ℝ} (h : ∀ v s', (solverInput cols₁.length B₁ a₁).Solves false v s' → s' ≤ s) :
    ∀ v s', (solverInput cols₂.length B₂ a₂).Solves false v s' → s' ≤ s := fun v s' hv => h v s' (C75_larger_is_stronger U hv).1

/-- **C75, optimum.** What bounds the objective from above with the smaller generating set bounds it with the larger one. -/
theorem C75_optimum (U : Compared I ch name cols₁ cols₂ B₁ B₂ P shared₁ shared₂ l solver₁ solver₂ a₁ a₂) {b : ℝ} (h : ∀ v, (solverInput cols₁.length B₁ a₁).Solves false v 0 → SdpSolver.lin (solverInput cols₁.length B₁ a₁).objective v ≤ b) :
    ∀ v, (solverInput cols₂.length B₂ a₂).Solves false v 0 → SdpSolver.lin (solverInput cols₂.length B₂ a₂).objective v ≤ b := by
  intro v hv
  obtain ⟨h1, h2⟩ := C75_larger_is_stronger U hv
  rw [← h2]
  exact h v h1

/-- The columns of more blocks. -/
theorem specCols_mono {specs₁ specs₂ : List (List Nat)} (h : ∀ b ∈ specs₁, b ∈ specs₂) : ∀ m ∈ specCols I specs₁, m ∈ specCols I specs₂ := by
  intro m hm
  obtain ⟨b, hb, hm⟩ := Columns.mem_cols.1 hm
  exact Columns.mem_cols.2 ⟨b, h b hb, hm⟩

/-- The columns of a higher level of the NPA hierarchy. -/
theorem npa_mono {n k maxLen : Nat} (h : n ≤ k) : ∀ m ∈ specCols I (Columns.npaSpecs I.scenario.nParties n maxLen), m ∈ specCols I (Columns.npaSpecs I.scenario.nParties k maxLen) := by
  refine specCols_mono fun b hb => ?_
  unfold Columns.npaSpecs at hb ⊢
  rcases List.mem_cons.1 hb with rfl | hb
  · simp
  · refine List.mem_cons_of_mem _ ?_
    obtain ⟨j, hj, hb⟩ := List.mem_flatMap.1 hb
    refine List.mem_flatMap.2 ⟨j, ?_, hb⟩
    rw [List.mem_range] at hj ⊢
    unfold Columns.cutoff at hj ⊢
    split at hj <;> split <;> omega

/-- Both generating sets lead to a program, and for every distribution (the option `shared_randomness` used for the second program only if for the first too), all later calls of `set_objective` and `solve` and all solvers, every assignment that satisfies the second program satisfies the first one,
and both objectives have the same value. -/
def AtLeastAsStrong (I : Input) (ch : Choice) (name : Atom → String) (cols₂ cols₁ : List (List Nat)) : Prop :=
  ∃ B₁ B₂, build I cols₁ ch name = some B₁ ∧ build I cols₂ ch name = some B₂ ∧
    ∀ (P : List Nat → Rat) (shared₁ shared₂ : Bool) (c₁ c₂ : Call Mon) (l : List (Call Mon)) (solver₁ solver₂ : Args → SolverOut) (a₁ a₂ : Args), setDistribution I B₁ P false shared₁ = some c₁ →
      setDistribution I B₂ P false shared₂ = some c₂ → (shared₂ = true → shared₁ = true) → (∀ c ∈ l, Later c) → SdpState.Ok B₁.env solver₁ (c₁ :: l) → SdpState.Ok B₂.env solver₂ (c₂ :: l) →
      SdpState.solverArgs B₁.env (SdpState.run B₁.env solver₁ (c₁ :: l)) = some a₁ → SdpState.solverArgs B₂.env (SdpState.run B₂.env solver₂ (c₂ :: l)) = some a₂ →
      ∀ v s, (solverInput cols₂.length B₂ a₂).Solves false v s →
        (solverInput cols₁.length B₁ a₁).Solves false v s ∧
        SdpSolver.lin (solverInput cols₁.length B₁ a₁).objective v = SdpSolver.lin (solverInput cols₂.length B₂ a₂).objective v

/-- **C75, lists of products of parties.** For every network: more products of parties give a relaxation that is at least as strong. -/
theorem C75_products_of_parties (hch : UsualChoice ch I) (hch' : ch.Computed I) (name : Atom → String) (hS : copiesOf I.scenario ≤ 254) (hnet : I.isNetwork = true) {specs₁ specs₂ : List (List Nat)}
    (h₁ : specs₁.count [] ≤ 1) (h₂ : specs₂.count [] ≤ 1) (hone : [] ∈ specs₁) (hsub : ∀ b ∈ specs₁, b ∈ specs₂) : AtLeastAsStrong I ch name (specCols I specs₂) (specCols I specs₁) := by
  obtain ⟨B₁, hB₁⟩ := C68_products_of_parties hch name hS (.inl hnet) specs₁ h₁
  obtain ⟨B₂, hB₂⟩ := C68_products_of_parties hch name hS (.inl hnet) specs₂ h₂
  have hV₁ : Setup I (specCols I specs₁) ch name B₁ := ⟨specCols_ok h₁, hS, hch', hB₁, equalitiesProper_of_network hnet _ _⟩
  have hV₂ : Setup I (specCols I specs₂) ch name B₂ := ⟨specCols_ok h₂, hS, hch', hB₂, equalitiesProper_of_network hnet _ _⟩
  refine ⟨B₁, B₂, hB₁, hB₂, ?_⟩
  intro P shared₁ shared₂ c₁ c₂ l solver₁ solver₂ a₁ a₂ h1 h2 hf hl ok1 ok2 ha1 ha2 v s hv
  have hunit : [] ∈ specCols I specs₁ := Columns.mem_cols.2 ⟨[], hone, .inl ⟨rfl, rfl⟩⟩
  refine C75_larger_is_stronger (P := P) (shared₁ := shared₁) (shared₂ := shared₂) (l := l) (solver₁ := solver₁) (solver₂ := solver₂) ⟨hch, hV₁, hV₂, specCols_mono hsub, hunit, ?_, hf, hl, ⟨c₁, h1, ok1, ha1⟩, ⟨c₂, h2, ok2, ha2⟩⟩ hv
  rw [minEq_network hnet hV₁]
  simp

theorem cutoff_mono {a b maxLen : Nat} (h : a ≤ b) : Columns.cutoff a maxLen ≤ Columns.cutoff b maxLen := by
  unfold Columns.cutoff
  split <;> split <;> omega

/-- **C75, the NPA hierarchy.** For every network, the relaxation of a level is at least as strong as that of every lower one: `build_columns("npa{n}")` and `build_columns("npa{k}")` with `n ≤ k`. -/
theorem C75_npa_levels (hch : UsualChoice ch I) (hch' : ch.Computed I) (name : Atom → String) (hS : copiesOf I.scenario ≤ 254) (hnet : I.isNetwork = true) {n k : Nat} (hnk : n ≤ k) (maxLen : Nat) :
    AtLeastAsStrong I ch name (specCols I (Columns.npaSpecs I.scenario.nParties k maxLen)) (specCols I (Columns.npaSpecs I.scenario.nParties n maxLen)) := by
  refine C75_products_of_parties hch hch' name hS hnet (by rw [Columns.count_npaSpecs]) (by rw [Columns.count_npaSpecs]) (by simp [Columns.npaSpecs]) fun b hb => ?_
  obtain ⟨h1, h2, h3⟩ := Columns.mem_npaSpecs.1 hb
  exact Columns.mem_npaSpecs.2 ⟨h1, h2, h3.trans (cutoff_mono hnk)⟩

theorem sum_mono {a b : List Nat} (hl : a.length = b.length) (h : ∀ p, a.getD p 0 ≤ b.getD p 0) : a.sum ≤ b.sum := by
  induction a generalizing b with
  | nil => simp
  | cons x a ih =>
    cases b with
    | nil => simp at hl
    | cons y b =>
      have h0 := h 0
      have h1 := ih (b := b) (by simpa using hl) fun p => by simpa using h (p + 1)
      simp only [List.getD_cons_zero] at h0
      simp only [List.sum_cons]
      omega

/-- **C75, local levels.** For every network, a local level is at least as strong as one which has no more operators of any party. -/
theorem C75_local_levels (hch : UsualChoice ch I) (hch' : ch.Computed I) (name : Atom → String) (hS : copiesOf I.scenario ≤ 254) (hnet : I.isNetwork = true) {lengths₁ lengths₂ : List Nat}
    (hl₁ : lengths₁.length = I.scenario.nParties) (hl₂ : lengths₂.length = I.scenario.nParties) (h : ∀ p, lengths₁.getD p 0 ≤ lengths₂.getD p 0) (maxLen : Nat) :
    AtLeastAsStrong I ch name (specCols I (Columns.localSpecs I.scenario.nParties lengths₂ maxLen)) (specCols I (Columns.localSpecs I.scenario.nParties lengths₁ maxLen)) := by
  refine C75_products_of_parties hch hch' name hS hnet (Columns.count_localSpecs hl₁) (Columns.count_localSpecs hl₂) ?_ fun b hb => ?_
  · obtain ⟨t, e⟩ := Columns.head_localSpecs (maxLen := maxLen) hl₁
    rw [e]; simp
  · obtain ⟨h1, h2, h3, h4⟩ := (Columns.mem_localSpecs hl₁).1 hb
    exact (Columns.mem_localSpecs hl₂).2 ⟨h1, h2, fun p hp => (h3 p hp).trans (h p), h4.trans (cutoff_mono (sum_mono (hl₁.trans hl₂.symm) h))⟩

/-- **C75, local and NPA levels.** For every network, the NPA level whose number is the sum of the numbers of operators of a local level is at least as strong as the local level. -/
theorem C75_local_below_npa (hch : UsualChoice ch I) (hch' : ch.Computed I) (name : Atom → String) (hS : copiesOf I.scenario ≤ 254) (hnet : I.isNetwork = true) {lengths : List Nat}
    (hl : lengths.length = I.scenario.nParties) {n : Nat} (h : lengths.sum ≤ n) (maxLen : Nat) :
    AtLeastAsStrong I ch name (specCols I (Columns.npaSpecs I.scenario.nParties n maxLen)) (specCols I (Columns.localSpecs I.scenario.nParties lengths maxLen)) := by
  refine C75_products_of_parties hch hch' name hS hnet (Columns.count_localSpecs hl) (by rw [Columns.count_npaSpecs]) ?_ fun b hb => ?_
  · obtain ⟨t, e⟩ := Columns.head_localSpecs (maxLen := maxLen) hl
    rw [e]; simp
  · obtain ⟨h1, h2, _, h4⟩ := (Columns.mem_localSpecs hl).1 hb
    exact Columns.mem_npaSpecs.2 ⟨h1, h2, h4.trans (cutoff_mono h)⟩

/-- **C75, NPA and local levels.** For every network, the local level with at least `n` operators of every party is at least as strong as the NPA level `n`. -/
theorem C75_npa_below_local (hch : UsualChoice ch I) (hch' : ch.Computed I) (name : Atom → String) (hS : copiesOf I.scenario ≤ 254) (hnet : I.isNetwork = true) {lengths : List Nat}
    (hl : lengths.length = I.scenario.nParties) {n : Nat} (h : ∀ p < I.scenario.nParties, n ≤ lengths.getD p 0) (hp : 0 < I.scenario.nParties) (maxLen : Nat) :
    AtLeastAsStrong I ch name (specCols I (Columns.localSpecs I.scenario.nParties lengths maxLen)) (specCols I (Columns.npaSpecs I.scenario.nParties n maxLen)) := by
  refine C75_products_of_parties hch hch' name hS hnet (by rw [Columns.count_npaSpecs]) (Columns.count_localSpecs hl) (by simp [Columns.npaSpecs]) fun b hb => ?_
  obtain ⟨h1, h2, h3⟩ := Columns.mem_npaSpecs.1 hb
  have hc : Columns.cutoff n maxLen ≤ n := by unfold Columns.cutoff; split <;> omega
  have hn : n ≤ lengths.sum := by
    refine (h 0 hp).trans ?_
    rw [List.getD_eq_getElem _ _ (by omega)]
    exact List.single_le_sum (by simp) _ (List.getElem_mem _)
  exact (Columns.mem_localSpecs hl).2 ⟨h1, h2, fun p hp => (List.count_le_length.trans (h3.trans hc)).trans (h p hp), h3.trans (cutoff_mono hn)⟩

/-- **C75, moments.** Two words are given the same moment exactly if one is the other, or its adjoint, after a relabelling of the copies. -/
theorem C75_same_moment (hch : UsualChoice ch I) (name : Atom → String) (hS : copiesOf I.scenario ≤ 254) {w v : List Nat} (hw : InRange I w) (hw0 : 0 ∉ w)
    (hwr : Reduced (notcomm I) (orthomat I) w) (hv : InRange I v) (hv0 : 0 ∉ v) (hvr : Reduced (notcomm I) (orthomat I) v) :
    momentOf I ch name w = momentOf I ch name v ↔ SdpRepr.SameOrbit (notcomm I) (symmetries I) w v ∨ SdpRepr.SameOrbit (notcomm I) (symmetries I) w v.reverse :=
  moment_iff hch name hS hw hw0 hwr hv hv0 hvr

/-- **C75, known values.** Every moment known after `set_distribution` with the smaller generating set is known with the larger one, with the same value. -/
theorem C75_known_values (hch : UsualChoice ch I) (hV₁ : Setup I cols₁ ch name B₁) (hV₂ : Setup I cols₂ ch name B₂) (hsub : ∀ m ∈ cols₁, m ∈ cols₂) {P : List Nat → Rat} {o₁ o₂ : Bool} (ho : o₂ = true → o₁ = true) {c₁ c₂ : Call Mon}
    (hc₁ : setDistribution I B₁ P false o₁ = some c₁) (hc₂ : setDistribution I B₂ P false o₂ = some c₂) (solver₁ solver₂ : Args → SolverOut) {m : Mon} {x : Rat} (hm : m ∈ B₁.env.moments)
    (h : (SdpState.run B₁.env solver₁ [c₁]).known.get m = some x) : (SdpState.run B₂.env solver₂ [c₂]).known.get m = some x := by
  obtain ⟨v₁, hv₁, F₁⟩ := in_force hV₁ hc₁ solver₁
  obtain ⟨v₂, hv₂, F₂⟩ := in_force hV₂ hc₂ solver₂
  rw [F₁.known] at h
  rw [F₂.known]
  exact known_mono hch hV₁ hV₂ hsub hv₁ hv₂ ho hm h

end Verif.Hierarchy
