import Mathlib.Algebra.BigOperators.Ring.Finset
import Mathlib.Algebra.BigOperators.Fin
import Mathlib.Algebra.Order.BigOperators.Ring.Finset
import Mathlib.Algebra.Order.Ring.Defs
import Mathlib.Data.Fintype.BigOperators
import Mathlib.Logic.Equiv.Fintype
/-!
Expectations of functions of finitely many independent random variables.
-/
namespace Verif.EndToEnd

variable {I J Λ F : Type} [Fintype I] [Fintype J] [Fintype Λ] [CommRing F]

/-- The expectation of `g` when the variables `ν i`, `i : I`, are independent and `ν i` has the distribution `w i`. -/
def expect [DecidableEq I] (w : I → Λ → F) (g : (I → Λ) → F) : F := ∑ ν : I → Λ, (∏ i, w i (ν i)) * g ν

variable [DecidableEq I] [DecidableEq J]

theorem expect_one (w : I → Λ → F) (hw : ∀ i, ∑ x, w i x = 1) : expect w (fun _ => 1) = 1 := by
  unfold expect
  simp only [mul_one]
  rw [← Fintype.piFinset_univ, ← Finset.prod_univ_sum (fun _ => Finset.univ) w]
  exact Finset.prod_eq_one fun i _ => hw i

theorem expect_sum {α : Type} (w : I → Λ → F) (l : List α) (g : α → (I → Λ) → F) :
    (l.map fun a => expect w (g a)).sum = expect w (fun ν => (l.map fun a => g a ν).sum) := by
  induction l with
  | nil => simp [expect]
  | cons a l ih =>
    rw [List.map_cons, List.sum_cons, ih]
    unfold expect
    rw [← Finset.sum_add_distrib]
    simp [mul_add]

theorem expect_congr (w : I → Λ → F) {g h : (I → Λ) → F} (e : ∀ ν, g ν = h ν) : expect w g = expect w h := by
  have : g = h := funext e
  rw [this]

theorem expect_nonneg {F : Type} [CommRing F] [PartialOrder F] [IsOrderedRing F] (w : I → Λ → F) (hw : ∀ i x, 0 ≤ w i x) {g : (I → Λ) → F} (hg : ∀ ν, 0 ≤ g ν) :
    0 ≤ expect w g :=
  Finset.sum_nonneg fun ν _ => mul_nonneg (Finset.prod_nonneg fun i _ => hw i _) (hg ν)

theorem expect_mono {F : Type} [CommRing F] [PartialOrder F] [IsOrderedRing F] (w : I → Λ → F) (hw : ∀ i x, 0 ≤ w i x) {g h : (I → Λ) → F}
    (hg : ∀ ν, g ν ≤ h ν) : expect w g ≤ expect w h :=
  Finset.sum_le_sum fun ν _ => mul_le_mul_of_nonneg_left (hg ν) (Finset.prod_nonneg fun i _ => hw i _)

theorem expect_equiv (e : J ≃ I) (w : I → Λ → F) (g : (I → Λ) → F) :
    expect w g = expect (fun j => w (e j)) (fun μ => g (μ ∘ e.symm)) := by
  unfold expect
  refine Fintype.sum_equiv (Equiv.arrowCongr e.symm (Equiv.refl Λ)) _ _ ?_
  intro ν
  congr 1
  · exact (Fintype.prod_equiv e _ _ fun j => by simp).symm
  · congr 1
    funext i
    simp

/-- Splitting the variables in two groups. -/
theorem expect_split (p : I → Prop) [DecidablePred p] (w : I → Λ → F) (g : ({i // p i} → Λ) → F) (h : ({i // ¬ p i} → Λ) → F) :
    expect w (fun ν => g (fun i => ν i) * h (fun i => ν i)) = expect (fun i : {i // p i} => w i) g * expect (fun i : {i // ¬ p i} => w i) h := by
  unfold expect
  rw [Finset.sum_mul_sum, ← Finset.sum_product', Finset.univ_product_univ]
  refine Fintype.sum_equiv (Equiv.piEquivPiSubtypeProd p fun _ => Λ) _ _ ?_
  intro ν
  have hp := Fintype.prod_subtype_mul_prod_subtype p (fun i => w i (ν i))
  rw [← hp]
  simp only [Equiv.piEquivPiSubtypeProd_apply]
  ring

/-- Functions of disjoint groups of variables are independent. -/
theorem expect_indep (p : I → Prop) [DecidablePred p] (w : I → Λ → F) (hw : ∀ i, ∑ x, w i x = 1) (g h : (I → Λ) → F)
    (hg : ∀ ν μ, (∀ i, p i → ν i = μ i) → g ν = g μ) (hh : ∀ ν μ, (∀ i, ¬ p i → ν i = μ i) → h ν = h μ) :
    expect w (fun ν => g ν * h ν) = expect w g * expect w h := by
  classical
  rcases isEmpty_or_nonempty (I → Λ) with hem | ⟨⟨z⟩⟩
  · have : ∀ g : (I → Λ) → F, expect w g = 0 := fun g => by unfold expect; simp
    rw [this, this, zero_mul]
  let g' : ({i // p i} → Λ) → F := fun a => g fun i => if hi : p i then a ⟨i, hi⟩ else z i
  let h' : ({i // ¬ p i} → Λ) → F := fun a => h fun i => if hi : ¬ p i then a ⟨i, hi⟩ else z i
  have eg : ∀ ν, g ν = g' fun i => ν i := fun ν => hg _ _ fun i hi => by simp [hi]
  have eh : ∀ ν, h ν = h' fun i => ν i := fun ν => hh _ _ fun i hi => by simp [hi]
  have e1 : expect w g = expect (fun i : {i // p i} => w i) g' := by
    have := expect_split p w g' (fun _ => 1)
    rw [expect_one (fun i : {i // ¬ p i} => w i) fun i => hw i, mul_one] at this
    rw [← this]
    exact expect_congr w fun ν => by rw [eg ν, mul_one]
  have e2 : expect w h = expect (fun i : {i // ¬ p i} => w i) h' := by
    have := expect_split p w (fun _ => 1) h'
    rw [expect_one (fun i : {i // p i} => w i) fun i => hw i, one_mul] at this
    rw [← this]
    exact expect_congr w fun ν => by rw [eh ν, one_mul]
  rw [e1, e2, ← expect_split]
  exact expect_congr w fun ν => by rw [eg ν, eh ν]

/-- The expectation of a function of some of the variables. -/
theorem expect_restrict (f : J → I) (hf : Function.Injective f) (w : I → Λ → F) (hw : ∀ i, ∑ x, w i x = 1) (g : (J → Λ) → F) :
    expect w (fun ν => g (ν ∘ f)) = expect (fun j => w (f j)) g := by
  classical
  have h1 := expect_split (fun i => i ∈ Set.range f) w (fun a : {i // i ∈ Set.range f} → Λ => g fun j => a ⟨f j, ⟨j, rfl⟩⟩) (fun _ => 1)
  rw [expect_one (fun i : {i // ¬ i ∈ Set.range f} => w i) fun i => hw i, mul_one] at h1
  have h2 := expect_equiv (Equiv.ofInjective f hf) (fun i : {i // i ∈ Set.range f} => w i) (fun a : {i // i ∈ Set.range f} → Λ => g fun j => a ⟨f j, ⟨j, rfl⟩⟩)
  calc expect w (fun ν => g (ν ∘ f)) = expect w (fun ν => g (fun j => ν (f j)) * 1) := expect_congr w fun ν => by rw [mul_one]; rfl
    _ = _ := h1
    _ = _ := by
      refine h2.trans ?_
      apply expect_congr
      intro ν
      congr 1
      funext j
      show ν ((Equiv.ofInjective f hf).symm ⟨f j, ⟨j, rfl⟩⟩) = ν j
      congr 1
      rw [Equiv.symm_apply_eq]
      rfl

end Verif.EndToEnd
