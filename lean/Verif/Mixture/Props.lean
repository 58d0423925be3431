import Verif.Mixture.Lemmas
import Verif.Generate.Props
/-!
C76: with `shared_randomness=True` the distributions that are not excluded form a convex set, and mixtures of what the causal structure can produce are not excluded.
-/
namespace Verif.Mixture
open Verif.Common Verif.Canon Verif.Scenario Verif.Moment Verif.SdpEnd Verif.SdpNames Verif.Hierarchy Verif.Generate
open Verif.State (Dict Mon mem_keys)
open Verif.SdpState (Call Args SolverOut valuesOf)
open Verif.EndToEnd (CausalModel WellFormed toClassical_realises)

variable {I : EndToEnd.Input} {ch : Choice} {name : Atom → String} {cols : List (List Nat)} {B : Built} {ι : Type} {s : Finset ι} {q : ι → Rat} {P : ι → List Nat → Rat}

/-- What the program with `shared_randomness=True` asks of an assignment and of a bound on the smallest eigenvalue. -/
structure Fulfils (I : EndToEnd.Input) (n : Nat) (B : Built) (P : List Nat → Rat) (v : Option Mon → ℝ) (r : ℝ) : Prop where
  given : ∀ m x, Given I B m → momentMarginal I P m = some x → v (some m) = ((x : Rat) : ℝ)
  unit : v none = 1
  nonneg : ∀ m ∈ B.env.hermitian, 0 ≤ v (some m)
  equalities : ∀ d ∈ B.env.minEq, SdpSolver.lin (realRow (SdpState.rowOf d)) v = 0
  psd : ∀ a : Args, SdpSolver.PSD fun i j => (solverInput n B a).momentMatrix v i j - if i = j then r else 0

theorem lower_row (m : Mon) (v : Option Mon → ℝ) : SdpSolver.lin (realRow (SdpState.lowerRow (m, 0))) v = v (some m) := by
  have hrow : SdpState.lowerRow (m, 0) = [(some m, 1)] := by
    unfold SdpState.lowerRow
    have h0 : isClose0 0 = true := by decide +kernel
    dsimp only
    rw [if_pos h0]
  rw [hrow]
  simp [SdpSolver.lin, realRow]

/-- What satisfies the program fulfils the requirements. -/
theorem fulfils_of_solves (hch : UsualChoice ch I) (hV : Setup I cols ch name B) {P : List Nat → Rat} {c : Call Mon} (hc : setDistribution I B P false true = some c) {l : List (Call Mon)} (hl : ∀ c ∈ l, Later c)
    {solver : Args → SolverOut} (hok : SdpState.Ok B.env solver (c :: l)) {a : Args} (ha : SdpState.solverArgs B.env (SdpState.run B.env solver (c :: l)) = some a) {v : Option Mon → ℝ} {r : ℝ}
    (hv : (solverInput cols.length B a).Solves false v r) : Fulfils I cols.length B P v r := by
  obtain ⟨w, hw, F⟩ := in_force hV hc solver
  have hS := run_constraints (E := B.env) solver c hl
  obtain ⟨_, e⟩ := args_of ha
  have hkn : ∀ m x, (SdpState.run B.env solver (c :: l)).known.get m = some x → v (some m) = ((x : Rat) : ℝ) := by
    intro m x hx
    have := hv.known
    rw [e] at this
    exact this (some m, (x : ℝ)) (List.mem_map.2 ⟨(some m, x), List.mem_append_left _ (List.mem_map.2 ⟨(m, x), mem_of_get hx, rfl⟩), rfl⟩)
  refine ⟨?_, ?_, ?_, ?_, fun a' => hv.psd⟩
  · intro m x hg hx
    refine hkn m x ?_
    rw [hS.known, F.known, valuesOf_shared]
    exact (direct_iff hV hw m x).2 ⟨hg, hx⟩
  · have h := hv.known (none, ((1 : Rat) : ℝ)) (by rw [e]; exact List.mem_map.2 ⟨(none, 1), by simp, rfl⟩)
    rw [show v none = ((1 : Rat) : ℝ) from h, Rat.cast_one]
  · intro m hm
    have ec : c = .setValues w false true := by
      unfold setDistribution at hc
      rw [hw] at hc
      exact (Option.some.inj hc).symm
    have hokk := ok_first hok
    rw [e] at hv
    rw [ec] at hokk
    rcases nonneg_in_force hch hV hw solver hokk hm with ⟨x, hx, h0⟩ | hlo
    · rw [← ec, ← hS.known] at hx
      rw [hkn m x hx]
      exact_mod_cast h0
    · rw [← ec, ← hS.lower] at hlo
      have := hv.ineq (realRow (SdpState.lowerRow (m, 0))) (List.mem_map.2 ⟨_, List.mem_append_left _ (List.mem_map.2 ⟨(m, 0), mem_of_get hlo, rfl⟩), rfl⟩)
      rwa [lower_row] at this
  · intro d hd
    exact hv.eq (realRow (SdpState.rowOf d)) (by rw [e]; exact List.mem_map.2 ⟨_, List.mem_map.2 ⟨d, hd, rfl⟩, rfl⟩)

/-- What fulfils the requirements satisfies the program. -/
theorem solves_of_fulfils (hV : Setup I cols ch name B) {P : List Nat → Rat} {c : Call Mon} (hc : setDistribution I B P false true = some c) {l : List (Call Mon)} (hl : ∀ c ∈ l, Later c)
    {solver : Args → SolverOut} {a : Args} (ha : SdpState.solverArgs B.env (SdpState.run B.env solver (c :: l)) = some a) {v : Option Mon → ℝ} {r : ℝ}
    (hv : Fulfils I cols.length B P v r) : (solverInput cols.length B a).Solves false v r := by
  obtain ⟨w, hw, F⟩ := in_force hV hc solver
  have hS := run_constraints (E := B.env) solver c hl
  obtain ⟨_, rfl⟩ := args_of ha
  refine ⟨?_, ?_, ?_, ?_, hv.psd _, by intro h; cases h⟩
  · intro t ht
    obtain ⟨u, hu, rfl⟩ := List.mem_map.1 (show t ∈ realRow ((_ : List (Option Mon × Rat)) ++ [(none, 1)]) from ht)
    rcases List.mem_append.1 hu with hu | hu
    · obtain ⟨⟨m, x⟩, hu', rfl⟩ := List.mem_map.1 hu
      have hx := (State.get_of_mem _ (SdpState.run_good B.env solver _).known _ _).1 hu'
      rw [hS.known, F.known, valuesOf_shared] at hx
      obtain ⟨hg, hx⟩ := (direct_iff hV hw m x).1 hx
      exact hv.given m x hg hx
    · rw [List.mem_singleton.1 hu]
      show v none = ((1 : Rat) : ℝ)
      rw [hv.unit, Rat.cast_one]
  · intro t ht
    obtain ⟨u, hu, rfl⟩ := List.mem_map.1 (show t ∈ List.map (fun t : Mon × Rat × Mon => (some t.1, ((t.2.1 : Rat) : ℝ), some t.2.2)) (SdpState.run B.env solver (c :: l)).semi from ht)
    rw [hS.semi, F.semi] at hu
    cases hu
  · intro d hd
    obtain ⟨u, hu, rfl⟩ := List.mem_map.1 (show d ∈ List.map realRow (_ ++ _) from hd)
    rcases List.mem_append.1 hu with hu | hu
    · obtain ⟨⟨m, x⟩, hu', rfl⟩ := List.mem_map.1 hu
      rw [hS.lower] at hu'
      obtain ⟨hm, rfl⟩ := F.lower m x ((State.get_of_mem _ F.nodup _ _).1 hu')
      rw [lower_row]
      exact hv.nonneg m hm
    · rw [hS.upper, F.upper] at hu
      cases hu
  · intro d hd
    obtain ⟨u, hu, rfl⟩ := List.mem_map.1 (show d ∈ List.map realRow (B.env.minEq.map SdpState.rowOf) from hd)
    obtain ⟨e, he, rfl⟩ := List.mem_map.1 hu
    exact hv.equalities e he

/-- The requirements are convex. -/
theorem fulfils_mixed (hch : UsualChoice ch I) (hV : Setup I cols ch name B) (hq0 : ∀ k ∈ s, 0 ≤ q k) (hq : ∑ k ∈ s, q k = 1) {v : ι → Option Mon → ℝ} {r : ι → ℝ}
    (hv : ∀ k ∈ s, Fulfils I cols.length B (P k) (v k) (r k)) : Fulfils I cols.length B (mix s q P) (mixed s q v) (∑ k ∈ s, ((q k : Rat) : ℝ) * r k) := by
  have hqR : ∑ k ∈ s, ((q k : Rat) : ℝ) = 1 := by exact_mod_cast congrArg (fun x : Rat => (x : ℝ)) hq
  have hq0R : ∀ k ∈ s, 0 ≤ ((q k : Rat) : ℝ) := fun k hk => by exact_mod_cast hq0 k hk
  refine ⟨?_, ?_, ?_, ?_, ?_⟩
  · intro m x hg hx
    obtain ⟨y, h1, rfl⟩ := momentMarginal_mix hq (given_short hch hV hg) hx
    unfold mixed
    push_cast
    exact Finset.sum_congr rfl fun k hk => by rw [(hv k hk).given m (y k) hg (h1 k)]
  · unfold mixed
    rw [← hqR]
    exact Finset.sum_congr rfl fun k hk => by rw [(hv k hk).unit, mul_one]
  · intro m hm
    exact Finset.sum_nonneg fun k hk => mul_nonneg (hq0R k hk) ((hv k hk).nonneg m hm)
  · intro d hd
    rw [lin_mixed]
    exact Finset.sum_eq_zero fun k hk => by rw [(hv k hk).equalities d hd, mul_zero]
  · intro a
    have := psd_sum (M := fun k i j => (solverInput cols.length B a).momentMatrix (v k) i j - if i = j then r k else 0) hq0R fun k hk => (hv k hk).psd a
    have e : (fun i j => (solverInput cols.length B a).momentMatrix (mixed s q v) i j - if i = j then ∑ k ∈ s, ((q k : Rat) : ℝ) * r k else 0) =
        fun i j => ∑ k ∈ s, ((q k : Rat) : ℝ) * ((solverInput cols.length B a).momentMatrix (v k) i j - if i = j then r k else 0) := by
      funext i j
      rw [matrix_mixed]
      simp only [mul_sub, Finset.sum_sub_distrib]
      congr 1
      by_cases h : i = j
      · simp [h]
      · simp [h]
    exact e ▸ this

/-- **C76, convexity.** With `shared_randomness=True`: if assignments satisfy the programs of some distributions, their mixture satisfies the program of the mixture of the distributions; whatever calls of `set_objective`
and `solve` were made after `set_distribution`. -/
theorem C76_mixtures (hch : UsualChoice ch I) (hV : Setup I cols ch name B) (hq0 : ∀ k ∈ s, 0 ≤ q k) (hq : ∑ k ∈ s, q k = 1) {c : Call Mon} (hc : setDistribution I B (mix s q P) false true = some c)
    {l : List (Call Mon)} (hl : ∀ c ∈ l, Later c) {solver : Args → SolverOut} {a : Args} (ha : SdpState.solverArgs B.env (SdpState.run B.env solver (c :: l)) = some a)
    {cs : ι → Call Mon} {ls : ι → List (Call Mon)} {solvers : ι → Args → SolverOut} {as : ι → Args} (hcs : ∀ k ∈ s, setDistribution I B (P k) false true = some (cs k)) (hls : ∀ k ∈ s, ∀ c ∈ ls k, Later c)
    (hok : ∀ k ∈ s, SdpState.Ok B.env (solvers k) (cs k :: ls k)) (has : ∀ k ∈ s, SdpState.solverArgs B.env (SdpState.run B.env (solvers k) (cs k :: ls k)) = some (as k))
    {v : ι → Option Mon → ℝ} {r : ι → ℝ} (hv : ∀ k ∈ s, (solverInput cols.length B (as k)).Solves false (v k) (r k)) :
    (solverInput cols.length B a).Solves false (mixed s q v) (∑ k ∈ s, ((q k : Rat) : ℝ) * r k) :=
  solves_of_fulfils hV hc hl ha (fulfils_mixed hch hV hq0 hq fun k hk => fulfils_of_solves hch hV (hcs k hk) (hls k hk) (hok k hk) (has k hk) (hv k hk))

/-- **C76, convexity of what is not excluded.** If none of the distributions is excluded with `shared_randomness=True`, their mixture is not. -/
theorem C76_mixture_not_excluded (hch : UsualChoice ch I) (hV : Setup I cols ch name B) (hq0 : ∀ k ∈ s, 0 ≤ q k) (hq : ∑ k ∈ s, q k = 1) {c : Call Mon} (hc : setDistribution I B (mix s q P) false true = some c)
    {solver : Args → SolverOut} {a : Args} (ha : SdpState.solverArgs B.env (SdpState.run B.env solver [c]) = some a)
    (h : ∀ k ∈ s, ∃ c a, setDistribution I B (P k) false true = some c ∧ SdpState.Ok B.env solver [c] ∧ SdpState.solverArgs B.env (SdpState.run B.env solver [c]) = some a ∧
      ∃ v, (solverInput cols.length B a).Solves false v 0) : ∃ v, (solverInput cols.length B a).Solves false v 0 := by
  have hf : ∀ k, ∃ v, k ∈ s → Fulfils I cols.length B (P k) v 0 := by
    intro k
    by_cases hk : k ∈ s
    · obtain ⟨c, a, h1, h2, h3, v, hv⟩ := h k hk
      exact ⟨v, fun _ => fulfils_of_solves hch hV h1 (by simp) h2 h3 hv⟩
    · exact ⟨fun _ => 0, fun h => absurd h hk⟩
  choose v hv using hf
  have := solves_of_fulfils hV hc (by simp) ha (fulfils_mixed hch hV hq0 hq hv)
  simp only [mul_zero, Finset.sum_const_zero] at this
  exact ⟨_, this⟩

section
variable {R : Type} [Ring R] [StarRing R] [Algebra ℝ R] [StarModule ℝ R]

/-- The values of a model fulfil the requirements of its distribution. -/
theorem fulfils_of_model (hV : Setup I cols ch name B) (hone : [] ∈ cols) (M : InflatedModel I R) {P : List Nat → Rat} (hR : M.Realises P) (hherm : ∀ m ∈ B.env.hermitian, 0 ≤ M.value m) :
    Fulfils I cols.length B P (values M) 0 := by
  obtain ⟨_, a, ha⟩ := C56_no_exception_partial hV hone M hherm (fun _ => ⟨"", 0⟩) [] (by simp) (by simp)
  have hv := SdpEnd.solves M hV hherm (fun _ => ⟨"", 0⟩) [] (by simp) ha
  obtain ⟨_, e⟩ := args_of ha
  obtain ⟨vals, h1, h2⟩ := C56_distribution_accepted hV M hR false true
  obtain ⟨w, hw, h1⟩ := Option.map_eq_some_iff.1 (show Option.map _ _ = _ from h1)
  cases h1
  refine ⟨?_, rfl, hherm, ?_, fun _ => hv.psd⟩
  · intro m x hg hx
    rcases hg with ⟨q1, q2⟩ | rfl | ⟨rfl, _⟩
    · have ht := (values_iff hw (m, some x)).2 ⟨x, rfl, q1, q2, hx⟩
      obtain ⟨y, e, hy⟩ := h2 _ ht
      cases e
      exact hy
    · rw [marginal_one] at hx
      cases hx
      show (M.moment []).re = _
      simp [InflatedModel.moment]
    · rw [marginal_zero] at hx
      cases hx
      show (M.moment [[0]]).re = _
      simp [InflatedModel.moment, val_zero M (a := [0]) rfl]
  · intro d hd
    exact hv.eq (realRow (SdpState.rowOf d)) (by rw [e]; exact List.mem_map.2 ⟨_, List.mem_map.2 ⟨d, hd, rfl⟩, rfl⟩)

end

/-- **C76, `set_distribution` accepts mixtures** of distributions it accepts. -/
theorem C76_mixture_accepted (hq : ∑ k ∈ s, q k = 1) (h : ∀ k ∈ s, ∃ c, setDistribution I B (P k) false true = some c) : ∃ c, setDistribution I B (mix s q P) false true = some c := by
  have hs : s.Nonempty := by
    rcases s.eq_empty_or_nonempty with rfl | h
    · simp at hq
    · exact h
  obtain ⟨k, hk⟩ := hs
  obtain ⟨c, hc⟩ := h k hk
  obtain ⟨w, hw, _⟩ := Option.map_eq_some_iff.1 (show Option.map _ _ = _ from hc)
  have hdef : ∀ (P' P : List Nat → Rat) (m : Mon) (x : Rat), momentMarginal I P m = some x → ∃ y, momentMarginal I P' m = some y := by
    intro P' P m x h
    unfold momentMarginal at h ⊢
    obtain ⟨l, hl, _⟩ := Option.map_eq_some_iff.1 h
    obtain ⟨r, hr⟩ := SymMM.mapM_exists (f := atomMarginal I P') (l := m) fun a ha => by
      obtain ⟨y, _, hy⟩ := CollinsGisin.mapM_mem hl ha
      unfold atomMarginal at hy ⊢
      split at hy
      · rename_i hz; rw [if_pos hz]; exact ⟨_, rfl⟩
      · rename_i hz
        rw [if_neg hz]
        obtain ⟨rows, hr, _⟩ := Option.map_eq_some_iff.1 hy
        rw [hr]; exact ⟨_, rfl⟩
    exact ⟨r.prod, by rw [hr]; rfl⟩
  obtain ⟨w', hw'⟩ := SymMM.mapM_exists (f := fun m => (momentMarginal I (mix s q P) m).map fun v => (m, some v)) (l := (atomicMonomials B).filter fun m => m.all (knowable I)) fun m hm => by
    obtain ⟨y, _, hy⟩ := CollinsGisin.mapM_mem (show List.mapM _ _ = _ from hw) hm
    obtain ⟨x, hx, _⟩ := Option.map_eq_some_iff.1 hy
    obtain ⟨y', hy'⟩ := hdef (mix s q P) (P k) m x hx
    exact ⟨_, by rw [hy']; rfl⟩
  exact ⟨.setValues w' false true, by unfold setDistribution distributionValues; rw [hw']; rfl⟩

/-- **C76, global shared randomness.** No mixture of distributions that classical causal models of the graph generate (each with its own alphabet) is excluded with `shared_randomness=True`; the mixture of the
values of the models satisfies the program. -/
theorem C76_models_not_excluded (hI : I.Accepted) (hD : WellFormed I.D) (hs : HasSources I.D) (hch : UsualChoice ch I) (hV : Setup I cols ch name B) (hone : [] ∈ cols) {Λ : ι → Type} [∀ k, Fintype (Λ k)]
    (M : ∀ k, CausalModel I.D I.outcomes I.priv (Λ k) ℝ) (hP : ∀ k ∈ s, (M k).Generates fun t => ((P k t : Rat) : ℝ)) (hq0 : ∀ k ∈ s, 0 ≤ q k) (hq : ∑ k ∈ s, q k = 1) :
    ∃ c, setDistribution I B (mix s q P) false true = some c ∧ ∀ (solver : Args → SolverOut) (l : List (Call Mon)) (a : Args), (∀ c ∈ l, Later c) →
      SdpState.solverArgs B.env (SdpState.run B.env solver (c :: l)) = some a →
        (solverInput cols.length B a).Solves false (mixed s q fun k => values (inflated hI hD hs (M k))) 0 := by
  have hR : ∀ k ∈ s, (inflated hI hD hs (M k)).Realises (P k) := fun k hk => classical_realises hI _ _ (toClassical_realises hI hD (M k) (hP k hk))
  obtain ⟨c, hc⟩ := C76_mixture_accepted (I := I) (B := B) (P := P) hq fun k hk => by
    obtain ⟨v, hv, _⟩ := C56_distribution_accepted hV _ (hR k hk) false true
    exact ⟨_, hv⟩
  refine ⟨c, hc, fun solver l a hl ha => ?_⟩
  have := solves_of_fulfils hV hc hl ha (fulfils_mixed hch hV hq0 hq (r := fun _ => 0) fun k hk =>
    fulfils_of_model hV hone (inflated hI hD hs (M k)) (hR k hk) fun m _ => classical_nonneg hI _ _ m)
  simpa using this

/-- **C76, shared randomness gives weaker programs.** What satisfies the program without the option satisfies it with the option. -/
theorem C76_option_is_weaker (hch : UsualChoice ch I) (hV : Setup I cols ch name B) (hone : [] ∈ cols) {P : List Nat → Rat} {c₁ c₂ : Call Mon} (hc₁ : setDistribution I B P false true = some c₁)
    (hc₂ : setDistribution I B P false false = some c₂) {l : List (Call Mon)} (hl : ∀ c ∈ l, Later c) {solver₁ solver₂ : Args → SolverOut} (hok₁ : SdpState.Ok B.env solver₁ (c₁ :: l))
    (hok₂ : SdpState.Ok B.env solver₂ (c₂ :: l)) {a₁ a₂ : Args} (ha₁ : SdpState.solverArgs B.env (SdpState.run B.env solver₁ (c₁ :: l)) = some a₁)
    (ha₂ : SdpState.solverArgs B.env (SdpState.run B.env solver₂ (c₂ :: l)) = some a₂) {v : Option Mon → ℝ} {r : ℝ} (h : (solverInput cols.length B a₂).Solves false v r) :
    (solverInput cols.length B a₁).Solves false v r ∧ SdpSolver.lin (solverInput cols.length B a₁).objective v = SdpSolver.lin (solverInput cols.length B a₂).objective v :=
  C75_larger_is_stronger (P := P) (shared₁ := true) (shared₂ := false) (l := l) (solver₁ := solver₁) (solver₂ := solver₂)
    ⟨hch, hV, hV, fun _ h => h, hone, fun _ h => h, (fun h => by cases h), hl, ⟨c₁, hc₁, hok₁, ha₁⟩, ⟨c₂, hc₂, hok₂, ha₂⟩⟩ h

end Verif.Mixture
