import Verif.Positivity.Lemmas
import Verif.Scenario.Props
import Mathlib.LinearAlgebra.Matrix.Notation
import Mathlib.LinearAlgebra.Matrix.ConjTranspose
import Mathlib.Data.Real.Star
import Mathlib.Tactic.Positivity
import Mathlib.Tactic.Ring
import Mathlib.Tactic.FinCases
import Mathlib.Tactic.NormNum
/-
C21: monomials flagged as physical have non-negative expectation.
-/
namespace Verif.Positivity
open Verif.Scenario Verif.Common Verif.Components

variable {R : Type*} [Ring R] [StarRing R]

theorem exists_lift {α β : Type*} (zs : List (α × β)) (vs : List α) (h : ∀ x ∈ vs, x ∈ zs.map Prod.fst) :
    ∃ ws : List (α × β), (∀ z ∈ ws, z ∈ zs) ∧ ws.map Prod.fst = vs := by
  induction vs with
  | nil => exact ⟨[], by simp, rfl⟩
  | cons a t ih =>
    obtain ⟨ws, h1, h2⟩ := ih (fun x hx => h x (by simp [hx]))
    have := h a (by simp)
    rw [List.mem_map] at this
    obtain ⟨z, hz, rfl⟩ := this
    refine ⟨z :: ws, ?_, by simp [h2]⟩
    intro y hy
    rcases List.mem_cons.1 hy with rfl | hy
    · exact hz
    · exact h1 y hy

theorem le_foldl_max (l : List Nat) (b : Nat) : (∀ x ∈ l, x ≤ l.foldl max b) ∧ b ≤ l.foldl max b := by
  induction l generalizing b with
  | nil => simp
  | cons a t ih =>
    rw [List.foldl_cons]
    obtain ⟨h1, h2⟩ := ih (max b a)
    refine ⟨?_, by omega⟩
    intro x hx
    rcases List.mem_cons.1 hx with rfl | hx
    · omega
    · exact h1 x hx

theorem pos_of_length_le_one {ρ : Op → R} (hρ : Projectors ρ) : ∀ l : List Op, l.length ≤ 1 → Pos ρ l
  | [], _ => pos_nil
  | [a], _ => pos_singleton hρ a
  | _ :: _ :: _, h => by simp at h

/-- One party: operators in different components commute, every component reduces to at most one operator. -/
theorem pos_party {ρ : Op → R} (hρ : Projectors ρ) (pm : List Op)
    (hc : ∀ a ∈ pm, ∀ b ∈ pm, ¬ ShareCopy a b → ρ a * ρ b = ρ b * ρ a)
    (h : ∀ i ∈ List.range ((monomialComponents pm).foldl max 0 + 1), Pos ρ (factor pm i)) : Pos ρ pm := by
  have hlen := components_length pm
  have hmap : (List.zip pm (monomialComponents pm)).map Prod.fst = pm := by
    rw [List.map_fst_zip]; omega
  have hρ' : Projectors (fun z : Op × Nat => ρ z.1) := fun z => hρ z.1
  have key : Pos (fun z : Op × Nat => ρ z.1) (List.zip pm (monomialComponents pm)) := by
    refine pos_classes hρ' Prod.snd (List.range ((monomialComponents pm).foldl max 0 + 1)) List.nodup_range _ ?_ ?_ ?_
    · intro z hz
      have := (List.of_mem_zip hz).2
      have := (le_foldl_max (monomialComponents pm) 0).1 _ this
      rw [List.mem_range]; omega
    · intro a ha b hb hne
      obtain ⟨i, hi, rfl⟩ := List.mem_iff_getElem.1 ha
      obtain ⟨j, hj, rfl⟩ := List.mem_iff_getElem.1 hb
      simp only [List.length_zip, hlen, Nat.min_self] at hi hj
      simp only [List.getElem_zip] at hne ⊢
      apply hc _ (List.getElem_mem _) _ (List.getElem_mem _)
      apply label_ne hi hj
      rw [List.getD_eq_getElem _ _ (by omega), List.getD_eq_getElem _ _ (by omega)]
      exact hne
    · intro i hi
      obtain ⟨vs, h1, h2⟩ := h i hi
      obtain ⟨ws, h3, h4⟩ := exists_lift _ vs h1
      have e1 : ∀ l : List (Op × Nat), l.map (fun z => ρ z.1) = (l.map Prod.fst).map ρ := by intro l; simp
      refine ⟨ws, h3, ?_⟩
      rw [e1, e1, h4]
      exact h2
  obtain ⟨vs, h1, h2⟩ := key
  have e1 : ∀ l : List (Op × Nat), l.map (fun z => ρ z.1) = (l.map Prod.fst).map ρ := by intro l; simp
  refine ⟨vs.map Prod.fst, ?_, ?_⟩
  · intro x hx
    obtain ⟨z, hz, rfl⟩ := List.mem_map.1 hx
    exact (List.of_mem_zip (h1 z hz)).1
  · rw [e1, e1, hmap] at h2
    exact h2

/-- **C21, without intermediate latents.** Let the operators be interpreted by projectors of any star-ring such that operators of
different parties commute and operators of one party that act on no common copy of a source commute. If a monomial is flagged physical (with or without
removing sandwiches), its product is a square, so its value is non-negative in every state. -/
theorem C21_physical_nonneg_partial (ρ : Op → R) (hρ : Projectors ρ) (φ : R → ℝ) (hφ : Positive φ) (mon : List Op)
    (hparty : ∀ a ∈ mon, ∀ b ∈ mon, a.party ≠ b.party → ρ a * ρ b = ρ b * ρ a)
    (hcopies : ∀ a ∈ mon, ∀ b ∈ mon, a.party = b.party → ¬ ShareCopy a b → ρ a * ρ b = ρ b * ρ a)
    (sandwich : Bool) (h : isPhysical sandwich mon = true) : 0 ≤ φ ((mon.map ρ).prod) := by
  suffices hp : Pos ρ mon by
    obtain ⟨vs, _, e⟩ := hp
    rw [e]
    exact hφ _
  refine pos_classes hρ Op.party (npUnique (mon.map (·.party))) (npUnique_nodup _) mon ?_ hparty ?_
  · intro a ha
    rw [mem_npUnique]
    exact List.mem_map_of_mem ha
  · intro p hp
    apply pos_party hρ
    · intro a ha b hb
      simp only [List.mem_filter, beq_iff_eq] at ha hb
      exact hcopies a ha.1 b hb.1 (ha.2.trans hb.2.symm)
    · intro i hi
      simp only [isPhysical, somethingPicked, Bool.not_eq_true', List.any_eq_false] at h
      have := h p hp
      simp only [List.any_eq_true, decide_eq_true_eq, not_exists, not_and] at this
      have := this i hi
      cases sandwich with
      | false =>
        simp only [Bool.false_eq_true, if_false] at this
        exact pos_of_length_le_one hρ _ (by omega)
      | true =>
        simp only [if_true] at this
        exact pos_strip hρ _ _ (pos_of_length_le_one hρ _ (Nat.not_lt.1 this))

/-- **C21 for every problem without nonclassical intermediate latents.** It suffices that the operators commute where the problem says so. -/
theorem C21_every_problem_partial (S : Scenario) (D : DagInput) (hD : D.nonclassicalLatents = [])
    (hS : ∀ (s src p : Nat), D.sources[s]? = some src → D.hypRow src p = 1 → S.hyp s p = true)
    (ρ : Op → R) (hρ : Projectors ρ) (φ : R → ℝ) (hφ : Positive φ) (mon : List Op) (hmon : ∀ a ∈ mon, a ∈ S.lexorder)
    (hcomm : ∀ a ∈ mon, ∀ b ∈ mon, operatorsCommute D.tbl a b = true → ρ a * ρ b = ρ b * ρ a)
    (sandwich : Bool) (h : isPhysical sandwich mon = true) : 0 ≤ φ ((mon.map ρ).prod) := by
  have hq : ∀ src p q, QuantumLinked D src p q → p = q ∧ Linked D src p p := by
    rintro src p q ⟨_, ⟨c, h1, h2, h3, h4⟩ | ⟨l, _, _, h3, _⟩⟩
    · exact ⟨h3.trans h4.symm, .inl ⟨c, h1, h2, h3, h3⟩⟩
    · simp [hD] at h3
  have hval : ∀ a ∈ mon, Valid S a := fun a ha => (mem_lexorder S).1 (hmon a ha)
  refine C21_physical_nonneg_partial ρ hρ φ hφ mon ?_ ?_ sandwich h
  · intro a ha b hb hne
    apply hcomm a ha b hb
    cases hc : operatorsCommute D.tbl a b with
    | true => rfl
    | false =>
      exfalso
      obtain ⟨⟨s, src, c, _, h1, _⟩, _⟩ := (C06_noncommuting_iff D a b).1 hc
      have := (hq _ _ _ h1).1
      have h3 := (hval a ha).1
      have h4 := (hval b hb).1
      omega
  · intro a ha b hb _ hsh
    apply hcomm a ha b hb
    cases hc : operatorsCommute D.tbl a b with
    | true => rfl
    | false =>
      exfalso
      obtain ⟨⟨s, src, c, h0, h1, h2, h3⟩, _⟩ := (C06_noncommuting_iff D a b).1 hc
      apply hsh
      refine ⟨s, c, ?_, h2, h3⟩
      have h4 := hS s src _ h0 ((C45_dag_tables D src _ (a.party - 1)).2.2.2.1.2 (hq _ _ _ h1).2)
      rintro rfl
      obtain ⟨hl, he⟩ := List.getElem?_eq_some_iff.1 h2
      have h5 := (hval a ha).copies_ok s hl
      rw [if_pos h4, he] at h5
      omega

/-! ### A counterexample with an intermediate latent -/

/-- Two parties 0, 1 fed by a nonclassical latent 20, which is fed by the sources 10 and 11. -/
def latentDag : DagInput where
  names := [0, 1]
  dag := [(10, [20]), (11, [20]), (20, [0, 1])]
  nonclassicalLatents := [20]
  classicalLatents := []
  classicalSources := []

/-- The corresponding scenario with two copies of each source, one setting and two outcomes. -/
def latentScenario : Scenario where
  nParties := 2
  nSources := 2
  outcomes := fun _ => 2
  settings := fun _ => 1
  hyp := fun s p => decide (s < 2 ∧ p < 2)
  level := fun _ => 2

/-- Projectors on the first basis vector and on the uniform vector. -/
noncomputable def latentRho (op : Op) : Matrix (Fin 2) (Fin 2) ℝ := if op.party = 1 then !![1, 0; 0, 0] else !![1/2, 1/2; 1/2, 1/2]

/-- The expectation in the (unnormalised) vector (1, -2). -/
noncomputable def latentPhi (X : Matrix (Fin 2) (Fin 2) ℝ) : ℝ := X 0 0 - 2 * X 0 1 - 2 * X 1 0 + 4 * X 1 1

/-- **C21 is false with intermediate latents.** One operator of each of two parties, sharing the copy of one source but not of the other one,
are declared non-commuting, yet their product is flagged physical: there are projectors and a state with negative value. -/
theorem C21_false_with_latents :
    (∀ (s src p : Nat), latentDag.sources[s]? = some src → latentDag.hypRow src p = 1 → latentScenario.hyp s p = true) ∧
    (∀ a ∈ [(⟨1, [1, 1], 0, 0⟩ : Op), ⟨2, [1, 2], 0, 0⟩], a ∈ latentScenario.lexorder) ∧
    Projectors latentRho ∧ Positive latentPhi ∧
    (∀ a ∈ [(⟨1, [1, 1], 0, 0⟩ : Op), ⟨2, [1, 2], 0, 0⟩], ∀ b ∈ [(⟨1, [1, 1], 0, 0⟩ : Op), ⟨2, [1, 2], 0, 0⟩],
      operatorsCommute latentDag.tbl a b = true → latentRho a * latentRho b = latentRho b * latentRho a) ∧
    isPhysical true [⟨1, [1, 1], 0, 0⟩, ⟨2, [1, 2], 0, 0⟩] = true ∧
    latentPhi (([⟨1, [1, 1], 0, 0⟩, ⟨2, [1, 2], 0, 0⟩] : List Op).map latentRho).prod < 0 := by
  have hp : Projectors latentRho := by
    intro a
    unfold latentRho
    split
    · constructor
      · ext i j; fin_cases i <;> fin_cases j <;> norm_num [Matrix.mul_apply, Fin.sum_univ_two]
      · ext i j; fin_cases i <;> fin_cases j <;> simp [Matrix.star_apply]
    · constructor
      · ext i j; fin_cases i <;> fin_cases j <;> norm_num [Matrix.mul_apply, Fin.sum_univ_two]
      · ext i j; fin_cases i <;> fin_cases j <;> simp [Matrix.star_apply]
  refine ⟨?_, by decide, hp, ?_, ?_, by decide, ?_⟩
  · intro s src p hs hh
    have hsrc : latentDag.sources = [10, 11] := by decide
    rw [hsrc] at hs
    have hp : Linked latentDag src p p := (C45_dag_tables latentDag src p p).2.2.2.1.1 hh
    have hs2 : s < 2 := by
      have := (List.getElem?_eq_some_iff.1 hs).1
      simpa using this
    have hp2 : p < 2 := by
      have hi : ∀ d : Nat, d ∈ [0, 1] → latentDag.partyIdx d < 2 := by decide
      rcases hp with ⟨c, _, h2, h3, _⟩ | ⟨l, h1, _, ⟨d, h3, h4⟩, _⟩
      · rw [h3]; exact hi c h2
      · have hch : ∀ l, l ∈ latentDag.children 10 ∨ l ∈ latentDag.children 11 → l = 20 := by
          have e1 : latentDag.children 10 = [20] := by decide
          have e2 : latentDag.children 11 = [20] := by decide
          rw [e1, e2]
          simp
        have : l = 20 := by
          rcases s with _ | _ | s
          · simp at hs; subst hs; exact hch l (.inl h1)
          · simp at hs; subst hs; exact hch l (.inr h1)
          · omega
        subst this
        rw [h4]
        exact hi d h3
    simp [latentScenario, hs2, hp2]
  · intro X
    have e : latentPhi (star X * X) = (X 0 0 - 2 * X 0 1) ^ 2 + (X 1 0 - 2 * X 1 1) ^ 2 := by
      simp [latentPhi, Matrix.mul_apply, Fin.sum_univ_two, Matrix.star_apply]
      ring
    rw [e]
    positivity
  · intro a ha b hb hab
    simp only [List.mem_cons, List.not_mem_nil, or_false] at ha hb
    rcases ha with rfl | rfl <;> rcases hb with rfl | rfl
    · rfl
    · exact absurd hab (by decide)
    · exact absurd hab (by decide)
    · rfl
  · norm_num [latentRho, latentPhi, Matrix.mul_apply]

/-! Non-vacuity: two operators of one party acting on disjoint copies, one of them sandwiched by a third, not commuting with it. -/
def exMon : List Op := [⟨1, [1, 1], 0, 0⟩, ⟨1, [2, 2], 0, 0⟩, ⟨1, [1, 1], 1, 0⟩, ⟨2, [1, 0], 0, 0⟩, ⟨1, [1, 1], 0, 0⟩]
noncomputable def exRho (op : Op) : Matrix (Fin 2) (Fin 2) ℝ :=
  if op.party = 1 ∧ op.copies = [1, 1] then (if op.setting = 0 then !![1, 0; 0, 0] else !![1/2, 1/2; 1/2, 1/2]) else 1

example : isPhysical true exMon = true ∧ isPhysical false exMon = false := by decide
example : exRho ⟨1, [1, 1], 0, 0⟩ * exRho ⟨1, [1, 1], 1, 0⟩ ≠ exRho ⟨1, [1, 1], 1, 0⟩ * exRho ⟨1, [1, 1], 0, 0⟩ := by
  intro h
  have := congrFun (congrFun h 0) 1
  simp [exRho, Matrix.mul_apply] at this
example : (∀ a ∈ exMon, ∀ b ∈ exMon, a.party ≠ b.party → exRho a * exRho b = exRho b * exRho a) ∧
    (∀ a ∈ exMon, ∀ b ∈ exMon, a.party = b.party → ¬ ShareCopy a b → exRho a * exRho b = exRho b * exRho a) := by
  constructor
  · intro a _ b _ hab
    by_cases h : a.party = 1
    · have : exRho b = 1 := by simp [exRho, show b.party ≠ 1 by omega]
      rw [this]; simp
    · have : exRho a = 1 := by simp [exRho, h]
      rw [this]; simp
  · intro a _ b _ _ hab
    by_cases h : a.copies = [1, 1]
    · have : exRho b = 1 := by
        have hb : b.copies ≠ [1, 1] := fun e => hab ⟨0, 1, by omega, by simp [h], by simp [e]⟩
        simp [exRho, hb]
      rw [this]; simp
    · have : exRho a = 1 := by simp [exRho, h]
      rw [this]; simp

end Verif.Positivity
