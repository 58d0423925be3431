import Verif.QuantumNet.Tensor
/-!
Product states: the systems are grouped in blocks (copies of sources), each of which is prepared independently.
-/
set_option linter.unusedSectionVars false

namespace Verif.QuantumNet

variable {A : Type} [Fintype A] [DecidableEq A]
variable {B : Type} [Fintype B] [DecidableEq B] {C : B → Type} [∀ b, Fintype (C b)] [∀ b, DecidableEq (C b)]

/-- The assignment of basis states to the systems of one block. -/
def part (i : (Σ b, C b) → A) (b : B) : C b → A := fun c => i ⟨b, c⟩

/-- The tensor product of operators on the blocks. -/
def tensor (σ : ∀ b, Operator (C b) A) : Operator (Σ b, C b) A := fun i j => ∏ b, σ b (part i b) (part j b)

theorem sum_blocks (f : ∀ b, (C b → A) → ℂ) : ∑ i : (Σ b, C b) → A, ∏ b, f b (part i b) = ∏ b, ∑ m, f b m := by
  rw [Finset.prod_univ_sum, Fintype.piFinset_univ]
  exact Fintype.sum_equiv (Equiv.piCurry fun _ _ => A) _ _ fun i => rfl

theorem tensor_mul (σ τ : ∀ b, Operator (C b) A) : tensor σ * tensor τ = tensor fun b => σ b * τ b := by
  ext i j
  rw [Matrix.mul_apply]
  show ∑ m, (∏ b, σ b (part i b) (part m b)) * ∏ b, τ b (part m b) (part j b) = ∏ b, (σ b * τ b) (part i b) (part j b)
  simp only [Matrix.mul_apply]
  rw [← sum_blocks fun b m => σ b (part i b) m * τ b m (part j b)]
  apply Finset.sum_congr rfl
  intro m _
  rw [Finset.prod_mul_distrib]

theorem tensor_star (σ : ∀ b, Operator (C b) A) : (tensor σ).conjTranspose = tensor fun b => (σ b).conjTranspose := by
  ext i j
  rw [Matrix.conjTranspose_apply]
  show star (∏ b, σ b (part j b) (part i b)) = ∏ b, (σ b).conjTranspose (part i b) (part j b)
  rw [star_prod]
  rfl

theorem tensor_trace (σ : ∀ b, Operator (C b) A) : (tensor σ).trace = ∏ b, (σ b).trace := by
  unfold Matrix.trace
  rw [← sum_blocks fun b m => (σ b).diag m]
  rfl

/-- The value of an operator in a state. -/
noncomputable def value {J : Type} [Fintype J] [DecidableEq J] (ρ X : Operator J A) : ℂ := (ρ * X).trace

theorem value_eq {J : Type} [Fintype J] [DecidableEq J] (ρ X : Operator J A) : value ρ X = ∑ i, ∑ j, ρ i j * X j i := by
  unfold value Matrix.trace
  apply Finset.sum_congr rfl
  intro i _
  rw [Matrix.diag_apply, Matrix.mul_apply]

/-- `value` as a linear functional. -/
noncomputable def functional {J : Type} [Fintype J] [DecidableEq J] (ρ : Operator J A) : Operator J A →ₗ[ℝ] ℂ where
  toFun := value ρ
  map_add' X Y := by unfold value; rw [mul_add, Matrix.trace_add]
  map_smul' c X := by
    unfold value
    rw [Matrix.mul_smul, Matrix.trace_smul]
    rfl

theorem value_star {J : Type} [Fintype J] [DecidableEq J] {ρ : Operator J A} (h : ρ.conjTranspose = ρ) (X : Operator J A) : value ρ (star X) = (starRingEnd ℂ) (value ρ X) := by
  unfold value
  rw [starRingEnd_apply, ← Matrix.trace_conjTranspose, Matrix.conjTranspose_mul, h, Matrix.trace_mul_comm]
  rfl

theorem value_positive {J : Type} [Fintype J] [DecidableEq J] {ρ β : Operator J A} (h : ρ = β.conjTranspose * β) (X : Operator J A) : 0 ≤ (value ρ (star X * X)).re := by
  have e : value ρ (star X * X) = ∑ i, ∑ j, star ((β * star X) i j) * (β * star X) i j := by
    unfold value
    rw [h, ← mul_assoc, Matrix.trace_mul_comm, show X * (β.conjTranspose * β * star X) = (β * star X).conjTranspose * (β * star X) by
      rw [Matrix.conjTranspose_mul, Matrix.star_eq_conjTranspose, Matrix.conjTranspose_conjTranspose]
      simp only [mul_assoc]]
    unfold Matrix.trace
    rw [Finset.sum_comm]
    apply Finset.sum_congr rfl
    intro j _
    rw [Matrix.diag_apply, Matrix.mul_apply]
    rfl
  rw [e, Complex.re_sum]
  apply Finset.sum_nonneg
  intro i _
  rw [Complex.re_sum]
  apply Finset.sum_nonneg
  intro j _
  rw [show star ((β * star X) i j) * (β * star X) i j = ((Complex.normSq ((β * star X) i j) : ℝ) : ℂ) from (Complex.normSq_eq_conj_mul_self).symm, Complex.ofReal_re]
  exact Complex.normSq_nonneg _

/-- Renaming the systems, in a state that does not change. -/
theorem value_perm {J : Type} [Fintype J] [DecidableEq J] {ρ : Operator J A} (π : J ≃ J) (h : ρ.submatrix (· ∘ π) (· ∘ π) = ρ) (X : Operator J A) :
    value ρ (X.submatrix (· ∘ π) (· ∘ π)) = value ρ X := by
  rw [value_eq, value_eq]
  have e : ∀ f : (J → A) → ℂ, ∑ i, f (i ∘ π) = ∑ i, f i := fun f => Fintype.sum_equiv (Equiv.arrowCongr π.symm (Equiv.refl A)) _ _ fun i => rfl
  rw [← e fun i => ∑ j, ρ i j * X j i]
  apply Finset.sum_congr rfl
  intro i _
  rw [← e fun j => ρ (i ∘ π) j * X j (i ∘ π)]
  apply Finset.sum_congr rfl
  intro j _
  rw [Matrix.submatrix_apply]
  congr 1
  exact (congrFun (congrFun h i) j).symm

section Split
variable (U : B → Prop) [DecidablePred U]

/-- The part of a product state on the blocks in `U`. -/
def restrict (σ : ∀ b, Operator (C b) A) : Operator { t : Σ b, C b // U t.1 } A :=
  fun i j => ∏ b : { b // U b }, σ b.1 (fun c => i ⟨⟨b.1, c⟩, b.2⟩) (fun c => j ⟨⟨b.1, c⟩, b.2⟩)

theorem tensor_split (σ : ∀ b, Operator (C b) A) (i j : (Σ b, C b) → A) :
    tensor σ i j = restrict U σ (i ∘ Subtype.val) (j ∘ Subtype.val) * restrict (fun b => ¬ U b) σ (i ∘ Subtype.val) (j ∘ Subtype.val) :=
  (Fintype.prod_subtype_mul_prod_subtype U fun b => σ b (part i b) (part j b)).symm

theorem mul_split (X : Operator { t : Σ b, C b // U t.1 } A) (Y : Operator { t : Σ b, C b // ¬ U t.1 } A) (i j : (Σ b, C b) → A) :
    (lift Subtype.val X * lift Subtype.val Y) i j = X (i ∘ Subtype.val) (j ∘ Subtype.val) * Y (i ∘ Subtype.val) (j ∘ Subtype.val) := by
  have r1 : ∀ t : Σ b, C b, t ∈ Set.range (Subtype.val : { t : Σ b, C b // U t.1 } → _) ↔ U t.1 := fun t => ⟨fun ⟨k, hk⟩ => hk ▸ k.2, fun h => ⟨⟨t, h⟩, rfl⟩⟩
  have r2 : ∀ t : Σ b, C b, t ∈ Set.range (Subtype.val : { t : Σ b, C b // ¬ U t.1 } → _) ↔ ¬ U t.1 := fun t => ⟨fun ⟨k, hk⟩ => hk ▸ k.2, fun h => ⟨⟨t, h⟩, rfl⟩⟩
  rw [mul_apart, if_pos]
  · intro t ht
    rw [r1, r2] at ht
    by_cases h : U t.1
    · exact absurd h (ht.1 h)
    · exact absurd (ht.2 h) h
  · intro k hk
    exact absurd k.2 ((r2 _).1 hk)
  · intro k hk
    exact absurd ((r1 _).1 hk) k.2

theorem value_split (σ : ∀ b, Operator (C b) A) (X : Operator { t : Σ b, C b // U t.1 } A) (Y : Operator { t : Σ b, C b // ¬ U t.1 } A) :
    value (tensor σ) (lift Subtype.val X * lift Subtype.val Y) = value (restrict U σ) X * value (restrict (fun b => ¬ U b) σ) Y := by
  rw [value_eq, value_eq, value_eq]
  let e := Equiv.piEquivPiSubtypeProd (fun t : Σ b, C b => U t.1) (fun _ => A)
  have h1 : ∀ f : ({ t : Σ b, C b // U t.1 } → A) → ({ t : Σ b, C b // ¬ U t.1 } → A) → ℂ,
      ∑ i : (Σ b, C b) → A, f (i ∘ Subtype.val) (i ∘ Subtype.val) = ∑ a, ∑ b, f a b := by
    intro f
    rw [← Fintype.sum_prod_type' f]
    exact Fintype.sum_equiv e _ _ fun i => rfl
  simp only [tensor_split U σ, mul_split U X Y]
  rw [h1 fun a b => ∑ j : (Σ b, C b) → A, restrict U σ a (j ∘ Subtype.val) * restrict (fun b => ¬ U b) σ b (j ∘ Subtype.val) * (X (j ∘ Subtype.val) a * Y (j ∘ Subtype.val) b)]
  rw [Finset.sum_mul_sum]
  apply Finset.sum_congr rfl
  intro a _
  apply Finset.sum_congr rfl
  intro b _
  rw [h1 fun a' b' => restrict U σ a a' * restrict (fun b => ¬ U b) σ b b' * (X a' a * Y b' b), Finset.sum_mul_sum]
  apply Finset.sum_congr rfl
  intro a' _
  apply Finset.sum_congr rfl
  intro b' _
  ring

/-- Operators on different blocks are independent in a product state. -/
theorem value_independent {σ : ∀ b, Operator (C b) A} (hσ : ∀ b, (σ b).trace = 1) (X : Operator { t : Σ b, C b // U t.1 } A) (Y : Operator { t : Σ b, C b // ¬ U t.1 } A) :
    value (tensor σ) (lift Subtype.val X * lift Subtype.val Y) = value (tensor σ) (lift Subtype.val X) * value (tensor σ) (lift Subtype.val Y) := by
  have h1 := value_split U σ X 1
  have h2 := value_split U σ 1 Y
  have h3 := value_split U σ (1 : Operator _ A) 1
  rw [lift_one, mul_one] at h1
  rw [lift_one, one_mul] at h2
  rw [lift_one, lift_one, one_mul, value, mul_one, tensor_trace, Finset.prod_congr rfl fun b _ => hσ b, Finset.prod_const_one] at h3
  rw [value_split, h1, h2, show value (restrict U σ) X * value (restrict (fun b => ¬ U b) σ) 1 * (value (restrict U σ) 1 * value (restrict (fun b => ¬ U b) σ) Y) =
    value (restrict U σ) X * value (restrict (fun b => ¬ U b) σ) Y * (value (restrict U σ) 1 * value (restrict (fun b => ¬ U b) σ) 1) by ring, ← h3, mul_one]

end Split

end Verif.QuantumNet
