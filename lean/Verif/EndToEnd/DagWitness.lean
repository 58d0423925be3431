import Verif.EndToEnd.DagCert
import Verif.EndToEnd.Witness
/-!
A causal model of a drawn graph with an intermediate latent: the instrumental scenario in which the common cause of `A` and `B` is itself caused by a source.
-/
namespace Verif.EndToEnd
open Verif.Common Verif.Scenario Verif.Orbits Verif.Components Verif.Moment Verif.State Verif.CollinsGisin
open ClassicalModel (Capacity)

/-- Source `10` → intermediate latent `20` → `A` (node `1`) and `B` (node `2`), `A` → `B`. -/
def latentInstr : Input where
  D := { names := [1, 2], dag := [(10, [20]), (20, [1, 2]), (1, [2])], nonclassicalLatents := [], classicalLatents := [20], classicalSources := [10] }
  outcomes := [2, 2]
  priv := [2, 1]
  levels := [1]
  allOutcomes := false

theorem latentInstr_accepted : latentInstr.Accepted where
  outcomes_length := rfl
  priv_length := rfl
  parties := by decide
  outcomes_pos := by decide
  priv_pos := by decide
  acyclic := ⟨fun p => p, by decide +kernel⟩

theorem latentInstr_edge (u v : Nat) : Edge latentInstr.D u v ↔ (u, v) ∈ [(10, 20), (20, 1), (20, 2), (1, 2)] := by
  unfold Edge latentInstr
  simp only [List.mem_cons, List.not_mem_nil, or_false, Prod.mk.injEq]
  constructor
  · rintro ⟨cs, (⟨rfl, rfl⟩ | ⟨rfl, rfl⟩ | ⟨rfl, rfl⟩), h⟩ <;> simp at h <;> omega
  · rintro (⟨rfl, rfl⟩ | ⟨rfl, rfl⟩ | ⟨rfl, rfl⟩ | ⟨rfl, rfl⟩)
    · exact ⟨_, .inl ⟨rfl, rfl⟩, by simp⟩
    · exact ⟨_, .inr (.inl ⟨rfl, rfl⟩), by simp⟩
    · exact ⟨_, .inr (.inl ⟨rfl, rfl⟩), by simp⟩
    · exact ⟨_, .inr (.inr ⟨rfl, rfl⟩), by simp⟩

theorem latentInstr_wellFormed : WellFormed latentInstr.D where
  keys := by decide
  names := by decide
  latents := by decide
  party := by
    intro u v h hu
    rw [latentInstr_edge] at h
    simp [latentInstr] at h hu ⊢
    omega
  latent := by
    intro u v h hu
    rw [latentInstr_edge] at h
    simp [latentInstr] at h hu ⊢
    omega
  source := by
    intro u v h
    rw [latentInstr_edge] at h
    simp [latentInstr] at h ⊢
    omega

/-- The outcome of a party: `A` answers `x ∧ λ`, `B` answers the exclusive or of `A`'s outcome and `λ`, where `λ` is the value of the intermediate latent. -/
def latentAnswer (n x : Nat) (o : Nat → Nat) (l : Nat → Option Bool) : Nat :=
  if n = 1 then if x = 1 ∧ l 20 = some true then 1 else 0 else if n = 2 then if (o 1 = 1) ≠ (l 20 = some true) then 1 else 0 else 0

/-- The source is a random bit, the intermediate latent negates it. -/
def latentModel : CausalModel latentInstr.D latentInstr.outcomes latentInstr.priv Bool ℚ where
  source := fun _ _ => 1 / 2
  latent := fun n l => if n = 20 then !((l 10).getD false) else false
  response := fun n x o l a => if a = latentAnswer n x o l then 1 else 0
  source_nonneg := by intro _ _; norm_num
  source_sum := by intro _; simp
  latent_local := by
    intro n l m h
    by_cases hn : n = 20
    · subst hn
      rw [h 10 ((latentInstr_edge _ _).2 (by simp))]
    · rw [if_neg hn, if_neg hn]
  response_nonneg := by
    intro n x o l a
    split
    · norm_num
    · exact le_refl _
  response_sum := by
    intro p hp x _ o _ l
    have ho : latentInstr.outcomes.getD p 0 = 2 := by
      have hp : p < 2 := hp
      rcases p with _ | _ | p
      · rfl
      · rfl
      · omega
    rw [ho]
    generalize hg : latentAnswer (latentInstr.D.names.getD p 0) x o l = g
    have : g < 2 := by
      rw [← hg]
      unfold latentAnswer
      split
      · split <;> omega
      · split
        · split <;> omega
        · omega
    have h2 : g = 0 ∨ g = 1 := by omega
    rcases h2 with rfl | rfl <;> simp [List.range_succ]
  response_local := by
    intro n x o o' l m a h1 h2
    have : latentAnswer n x o l = latentAnswer n x o' m := by
      unfold latentAnswer
      by_cases hn : n = 1
      · subst hn
        rw [h2 20 (by decide) ((latentInstr_edge _ _).2 (by simp)), if_pos rfl, if_pos rfl]
      · by_cases hn2 : n = 2
        · subst hn2
          rw [h2 20 (by decide) ((latentInstr_edge _ _).2 (by simp)), h1 1 (by decide) ((latentInstr_edge _ _).2 (by simp))]
        · simp [hn, hn2]
    rw [this]

/-- The distribution of the model. -/
def latentArray (t : List Nat) : ℚ := latentModel.prob (fun p => t.getD p 0) fun p => t.getD (2 + p) 0

example : latentArray [1, 0, 1, 0] = 1 / 2 ∧ latentArray [0, 1, 0, 0] = 1 / 2 ∧ latentArray [0, 1, 1, 0] = 0 := by decide +kernel

theorem latent_generates : latentModel.Generates fun t => ((latentArray t : Rat) : ℚ) := by
  have : ∀ a ∈ ndindex latentInstr.outcomes, ∀ x ∈ ndindex latentInstr.priv, latentArray (a ++ x) = latentModel.prob (fun p => a.getD p 0) (fun p => x.getD p 0) := by decide +kernel
  exact this

/-- The distribution is accepted and the solver's problems have the stated solutions; the known values are not all 0 or 1. -/
example : ∃ (E : Env Mon) (c : Call Mon) (a : Args), latentInstr.lpEnv (fun _ => "") = some E ∧ latentInstr.setDistribution latentArray false false = some c ∧
    solverArgs E (run E (fun _ => ⟨true, "", 0⟩) [c]) = some a ∧ (∃ t ∈ a.known, t.2 = 1 / 2) ∧
    ∀ f : LpSolver.Flags, f.relaxKnown = false → f.relaxIneq = false → ∀ t : LpSolver.Task ℚ, LpSolver.buildTask f (toSolver latentInstr.columns.length a) = some t →
        (f.dual = false → ∃ x, t.Feasible x) ∧ (f.dual = true → ∀ y, t.Feasible y → 0 ≤ t.value y) := by
  have hs : (argsOf latentInstr latentArray false).isSome = true := by decide +kernel
  obtain ⟨⟨E, c, a⟩, h⟩ := Option.isSome_iff_exists.1 hs
  obtain ⟨h1, h2, h3⟩ := argsOf_some h
  have hk : ((argsOf latentInstr latentArray false).map fun r => decide (∃ t ∈ r.2.2.known, t.2 = 1 / 2)) = some true := by decide +kernel
  rw [h] at hk
  have hcap : ∀ v ∈ latentInstr.columns, Capacity latentInstr.scenario (flatnonzero v) := by
    have : ∀ v ∈ latentInstr.columns, (flatnonzero v).length ≤ 255 := by decide +kernel
    exact fun v hv => capacity_of_length (this v hv)
  obtain ⟨c', hc', hrest⟩ := C52_dag_model_accepted latentInstr_accepted latentInstr_wellFormed latentModel latent_generates hcap h1 (fun _ => ⟨true, "", 0⟩) false false (by simp)
  have : c' = c := Option.some.inj (hc'.symm.trans h2)
  subst this
  exact ⟨E, c', a, h1, h2, h3, of_decide_eq_true (Option.some.inj hk), hrest a h3⟩

theorem instr_edge (u v : Nat) : Edge instr.D u v ↔ (u, v) ∈ [(10, 1), (10, 2), (1, 2)] := by
  unfold Edge instr
  simp only [List.mem_cons, List.not_mem_nil, or_false, Prod.mk.injEq]
  constructor
  · rintro ⟨cs, (⟨rfl, rfl⟩ | ⟨rfl, rfl⟩), h⟩ <;> simp at h <;> omega
  · rintro (⟨rfl, rfl⟩ | ⟨rfl, rfl⟩ | ⟨rfl, rfl⟩)
    · exact ⟨_, .inl ⟨rfl, rfl⟩, by simp⟩
    · exact ⟨_, .inl ⟨rfl, rfl⟩, by simp⟩
    · exact ⟨_, .inr ⟨rfl, rfl⟩, by simp⟩

theorem instr_wellFormed : WellFormed instr.D where
  keys := by decide
  names := by decide
  latents := by decide
  party := by
    intro u v h hu
    rw [instr_edge] at h
    simp [instr] at h hu ⊢
    omega
  latent := by
    intro u v h hu
    simp [instr] at hu
  source := by
    intro u v h
    rw [instr_edge] at h
    simp [instr] at h ⊢
    omega

/-- No classical causal model of the instrumental scenario generates the distribution in which `B` answers `A`'s setting while `A` always answers 0: the certificate of the
solver is -1 on it. -/
example (Λ : Type) [Fintype Λ] (M : CausalModel instr.D instr.outcomes instr.priv Λ ℚ) : ¬ M.Generates fun t => ((signalling t : Rat) : ℚ) := by
  obtain ⟨E, c, a, p, h1, h2, h3, _, _, _, hp, hret, _, hval, _⟩ := instr_certificate
  refine C53_negative_certificate_excludes instr_accepted instr_wellFormed instr_short h1 (fun _ => ⟨true, "", 0⟩) h2 h3 hp hret ?_ Λ M
  simp only [Rat.cast_id]
  rw [hval]
  have : instr.columns.length ≤ 100 := by decide +kernel
  have : (instr.columns.length : ℚ) ≤ 100 := by exact_mod_cast this
  linarith

end Verif.EndToEnd
