import Verif.Positivity.Hermitian
import Verif.SdpRepr.Props
import Mathlib.LinearAlgebra.Matrix.ConjTranspose
import Mathlib.Data.Real.Star
import Mathlib.Tactic.Positivity
import Mathlib.Tactic.Ring
import Mathlib.Tactic.NormNum
import Mathlib.Data.Fintype.Prod
import Mathlib.Data.Fintype.BigOperators
import Mathlib.Algebra.BigOperators.Fin
/-
C46: default lower bounds of the SDP.
-/
namespace Verif.Positivity
open Verif.Canon Verif.Canon.Spec Verif.Common Verif.MomentMatrix Verif.SymMM Verif.SdpRepr Verif.Scenario Verif.Symmetry Verif.Orbits

variable {N : Nat} {nc om : BMat} {meas : Nat → Nat} {commuting : Bool} {rows : List (List Nat)}
variable {R : Type*} [Ring R] [StarRing R]

theorem reduced_reverse (hsym : ∀ a b, nc a b = nc b a) {w : List Nat} (h : Reduced nc om w) : Reduced nc om w.reverse := by
  intro u a b v hc
  have h1 := commEq_reverse hsym hc
  rw [List.reverse_reverse] at h1
  have e : (u ++ a :: b :: v).reverse = v.reverse ++ b :: a :: u.reverse := by simp
  rw [e] at h1
  obtain ⟨h2, h3, h4⟩ := h _ _ _ _ h1
  exact ⟨fun e => h2 e.symm, h4, h3⟩

/-- **C46, which moments are bounded.** A reduced monomial that is the representative of its moment receives the lower bound 0 exactly when
all its operators commute or a symmetry followed by commutations turns its adjoint into it. -/
theorem C46_bounded_iff (H : OperatorList N nc om meas) (h : SymData N nc om rows)
    (hcomm : commuting = true → ∀ a b, nc a b = false) (history : List Call) (hh : ∀ c ∈ history, OkCall N nc om c)
    (w : List Nat) (hw : ∀ x ∈ w, x < N) (hred : Reduced nc om w) (hrep : IsLeast nc rows w w) :
    isHermitian nc om commuting rows (after nc om commuting rows history) w = true ↔
      (∀ a ∈ w, ∀ b ∈ w, nc a b = false) ∨ SameOrbit nc rows w.reverse w := by
  unfold isHermitian conjugate
  have hall : allCommuting nc commuting w = true ↔ ∀ a ∈ w, ∀ b ∈ w, nc a b = false := by
    unfold allCommuting
    cases commuting with
    | false => simp
    | true => simp [hcomm rfl]
  split
  · rename_i h1
    simp only [beq_self_eq_true, true_iff]
    exact .inl (hall.1 h1)
  · rename_i h1
    have hw' : ∀ x ∈ w.reverse, x < N := fun x hx => hw x (List.mem_reverse.1 hx)
    have e := C47_representative_is_least H h hcomm history hh true w.reverse hw' (reduced_reverse H.nc_symm hred)
    rw [beq_iff_eq]
    constructor
    · intro e1
      rw [e1] at e
      exact .inr e.1
    · rintro (h2 | h2)
      · exact absurd (hall.2 h2) h1
      · exact isLeast_unique (isLeast_congr h hw' h2 e) hrep

/-- **C46, by commutations.** A monomial which commutations turn into its adjoint is a square, so it is non-negative in every state of every model. -/
theorem C46_selfadjoint_nonneg (hsym : ∀ a b, nc a b = nc b a) (hd : ∀ a, nc a a = false) (ρ : Nat → R) (hρ : Projectors ρ)
    (φ : R → ℝ) (hφ : Positive φ) (w : List Nat) (hcomm : ∀ a ∈ w, ∀ b ∈ w, nc a b = false → ρ a * ρ b = ρ b * ρ a)
    (h : CommEq (fun a b => nc a b = false) w w.reverse) : 0 ≤ φ ((w.map ρ).prod) := by
  obtain ⟨vs, _, e⟩ := pos_of_palindrome hsym hd hρ w.length w rfl hcomm h
  rw [e]
  exact hφ _

/-- **C46 without symmetries.** In a problem whose only symmetry is the identity (for instance without inflation), every monomial that
receives the lower bound 0 is non-negative in every state of every model. -/
theorem C46_bounded_nonneg_partial (H : OperatorList N nc om meas) (h : SymData N nc om [List.range N])
    (hcomm : commuting = true → ∀ a b, nc a b = false) (history : List Call) (hh : ∀ c ∈ history, OkCall N nc om c)
    (w : List Nat) (hw : ∀ x ∈ w, x < N) (hred : Reduced nc om w) (hrep : IsLeast nc [List.range N] w w)
    (ρ : Nat → R) (hρ : Projectors ρ) (hc : ∀ a ∈ w, ∀ b ∈ w, nc a b = false → ρ a * ρ b = ρ b * ρ a) (φ : R → ℝ) (hφ : Positive φ)
    (hb : isHermitian nc om commuting [List.range N] (after nc om commuting [List.range N] history) w = true) :
    0 ≤ φ ((w.map ρ).prod) := by
  apply C46_selfadjoint_nonneg H.nc_symm H.nc_diag ρ hρ φ hφ w hc
  rcases (C46_bounded_iff H h hcomm history hh w hw hred hrep).1 hb with h1 | ⟨r, hr, h1⟩
  · exact CommEq.of_perm (List.reverse_perm w).symm h1
  · simp only [List.mem_singleton] at hr
    subst hr
    have e : (w.reverse.map fun x => (List.range N).getD x x) = w.reverse := by
      conv_rhs => rw [← List.map_id w.reverse]
      apply List.map_congr_left
      intro x hx
      have := hw x (List.mem_reverse.1 hx)
      rw [List.getD_eq_getElem _ _ (by simpa using this)]
      simp
    rw [e] at h1
    exact h1.symm

/-! ## A quantum model that the default bounds exclude

One party measuring two quantum sources; the first one has two copies. Both sources emit the state |0⟩ of a qubit, the first measurement
is {Φ, 1 - Φ} with Φ the projector on (|00⟩ + |11⟩)/√2, the second one is the same measurement with relabelled outcomes. -/

def hermDag : DagInput where
  names := [0]
  dag := [(10, [0]), (11, [0])]
  nonclassicalLatents := []
  classicalLatents := []
  classicalSources := []

def hermScenario : Scenario where
  nParties := 1
  nSources := 2
  outcomes := fun _ => 2
  settings := fun _ => 2
  hyp := fun s p => decide (s < 2 ∧ p < 1)
  level := fun s => if s = 0 then 2 else 1

/-- Twice the matrix of the measurement operator of setting `x` and outcome `o` on the two qubits. -/
def twiceMeas (x o : Nat) (i j : Fin 2 × Fin 2) : Int :=
  if x = o then (if i.1 = i.2 ∧ j.1 = j.2 then 1 else 0)
  else (if i = j then 2 else 0) - (if i.1 = i.2 ∧ j.1 = j.2 then 1 else 0)

/-- The three qubits of the inflated network: copies 1 and 2 of the first source, and the second source. -/
abbrev Q3 := Fin 2 × Fin 2 × Fin 2

/-- Twice the operator of the inflated network: the measurement acts on the named copy of the first source and on the second source, and as the identity on
the other copy. -/
def twiceOp (op : Op) (i j : Q3) : Int :=
  if op.copies.getD 0 0 = 1 then (if i.2.1 = j.2.1 then twiceMeas op.setting op.outcome (i.1, i.2.2) (j.1, j.2.2) else 0)
  else (if i.1 = j.1 then twiceMeas op.setting op.outcome (i.2.1, i.2.2) (j.2.1, j.2.2) else 0)

/-- Twice the operator of rank `n` (rank 0 is the zero operator). -/
def opZ (n : Nat) : Matrix Q3 Q3 ℤ := fun i j =>
  match hermScenario.sdpLexorder[n]? with
  | some op => if n = 0 then 0 else twiceOp op i j
  | none => 0

/-- The model. -/
noncomputable def hermRho (n : Nat) : Matrix Q3 Q3 ℝ := fun i j => (opZ n i j : ℝ) / 2

/-- The state |000⟩. -/
noncomputable def hermPhi (X : Matrix Q3 Q3 ℝ) : ℝ := X (0, 0, 0) (0, 0, 0)

example : hermScenario.sdpLexorder = [zeroOp 2, ⟨1, [1, 1], 0, 0⟩, ⟨1, [1, 1], 0, 1⟩, ⟨1, [1, 1], 1, 0⟩, ⟨1, [1, 1], 1, 1⟩,
  ⟨1, [2, 1], 0, 0⟩, ⟨1, [2, 1], 0, 1⟩, ⟨1, [2, 1], 1, 0⟩, ⟨1, [2, 1], 1, 1⟩] := by decide

theorem hermSyms : sdpSymmetries hermScenario = [[0, 1, 2, 3, 4, 5, 6, 7, 8], [0, 5, 6, 7, 8, 1, 2, 3, 4]] := by decide

/-! ### computations with integer matrices -/

def mulZ (A B : Matrix Q3 Q3 ℤ) : Matrix Q3 Q3 ℤ := fun i j =>
  A i (0, 0, 0) * B (0, 0, 0) j + A i (0, 0, 1) * B (0, 0, 1) j + (A i (0, 1, 0) * B (0, 1, 0) j + A i (0, 1, 1) * B (0, 1, 1) j) +
  (A i (1, 0, 0) * B (1, 0, 0) j + A i (1, 0, 1) * B (1, 0, 1) j + (A i (1, 1, 0) * B (1, 1, 0) j + A i (1, 1, 1) * B (1, 1, 1) j))

theorem mul_eq_mulZ (A B : Matrix Q3 Q3 ℤ) : A * B = mulZ A B := by
  ext i j
  simp [Matrix.mul_apply, mulZ, Fintype.sum_prod_type, Fin.sum_univ_two]

theorem z_idem : ∀ n ∈ List.range 9, ∀ t : Q3 × Q3, mulZ (opZ n) (opZ n) t.1 t.2 = 2 * opZ n t.1 t.2 := by decide +kernel
theorem z_symm : ∀ n ∈ List.range 9, ∀ t : Q3 × Q3, opZ n t.1 t.2 = opZ n t.2 t.1 := by decide +kernel
theorem z_comm : ∀ a ∈ List.range 9, ∀ b ∈ List.range 9, padMat (hermScenario.notcomm hermDag.tbl true) a b = false →
    ∀ t : Q3 × Q3, mulZ (opZ a) (opZ b) t.1 t.2 = mulZ (opZ b) (opZ a) t.1 t.2 := by decide +kernel
theorem z_ortho : ∀ a ∈ List.range 9, ∀ b ∈ List.range 9, hermScenario.orthomat a b = true → ∀ t : Q3 × Q3, mulZ (opZ a) (opZ b) t.1 t.2 = 0 := by decide +kernel
theorem z_complete : ∀ n ∈ [1, 3, 5, 7], ∀ t : Q3 × Q3, opZ n t.1 t.2 + opZ (n + 1) t.1 t.2 = if t.1 = t.2 then 2 else 0 := by decide +kernel
def swap12 : Q3 ≃ Q3 where
  toFun i := (i.2.1, i.1, i.2.2)
  invFun i := (i.2.1, i.1, i.2.2)
  left_inv _ := rfl
  right_inv _ := rfl
theorem z_sym : ∀ n ∈ List.range 9, ∀ t : Q3 × Q3, opZ ([0, 5, 6, 7, 8, 1, 2, 3, 4].getD n n) t.1 t.2 = opZ n (swap12 t.1) (swap12 t.2) := by decide +kernel
theorem z_value : mulZ (opZ 1) (mulZ (opZ 7) (mulZ (opZ 3) (opZ 5))) (0, 0, 0) (0, 0, 0) = -3 := by decide +kernel

theorem opZ_out {n : Nat} (h : 9 ≤ n) : opZ n = 0 := by
  have hl : hermScenario.sdpLexorder.length = 9 := by decide
  have : hermScenario.sdpLexorder[n]? = none := List.getElem?_eq_none (by omega)
  ext i j
  simp [opZ, this]

theorem hermRho_eq (n : Nat) : hermRho n = (1 / 2 : ℝ) • (opZ n).map (Int.castRingHom ℝ) := by
  ext i j
  simp [hermRho]
  ring

theorem hermRho_mul (a b : Nat) : hermRho a * hermRho b = (1 / 4 : ℝ) • (opZ a * opZ b).map (Int.castRingHom ℝ) := by
  rw [hermRho_eq, hermRho_eq, Matrix.map_mul, Matrix.smul_mul, Matrix.mul_smul, smul_smul]
  norm_num

theorem herm_projectors : Projectors hermRho := by
  intro n
  rcases Nat.lt_or_ge n 9 with h | h
  · constructor
    · rw [hermRho_mul, hermRho_eq]
      ext i j
      have := z_idem n (List.mem_range.2 h) (i, j)
      simp only [Matrix.smul_apply, Matrix.map_apply, mul_eq_mulZ, this, smul_eq_mul]
      simp
      ring
    · ext i j
      have := z_symm n (List.mem_range.2 h) (i, j)
      simp only at this
      simp [Matrix.star_apply, hermRho, this]
  · have : hermRho n = 0 := by ext i j; simp [hermRho, opZ_out h]
    rw [this]
    simp

theorem herm_out {n : Nat} (h : 9 ≤ n) : hermRho n = 0 := by ext i j; simp [hermRho, opZ_out h]

theorem herm_comm (a b : Nat) (h : padMat (hermScenario.notcomm hermDag.tbl true) a b = false) :
    hermRho a * hermRho b = hermRho b * hermRho a := by
  rcases Nat.lt_or_ge a 9 with ha | ha
  · rcases Nat.lt_or_ge b 9 with hb | hb
    · rw [hermRho_mul, hermRho_mul]
      congr 2
      ext i j
      rw [mul_eq_mulZ, mul_eq_mulZ]
      exact z_comm a (List.mem_range.2 ha) b (List.mem_range.2 hb) h (i, j)
    · simp [herm_out hb]
  · simp [herm_out ha]

theorem herm_ortho (a b : Nat) (h : hermScenario.orthomat a b = true) : hermRho a * hermRho b = 0 := by
  rcases Nat.lt_or_ge a 9 with ha | ha
  · rcases Nat.lt_or_ge b 9 with hb | hb
    · rw [hermRho_mul]
      ext i j
      have := z_ortho a (List.mem_range.2 ha) b (List.mem_range.2 hb) h (i, j)
      simp only at this
      simp only [Matrix.smul_apply, Matrix.map_apply, mul_eq_mulZ, this]
      simp
    · simp [herm_out hb]
  · simp [herm_out ha]

theorem herm_complete (n : Nat) (h : n ∈ [1, 3, 5, 7]) : hermRho n + hermRho (n + 1) = 1 := by
  ext i j
  have := z_complete n h (i, j)
  simp only at this
  have e : ((opZ n i j + opZ (n + 1) i j : ℤ) : ℝ) = if i = j then 2 else 0 := by rw [this]; split <;> simp
  push_cast at e
  simp only [Matrix.add_apply, hermRho, Matrix.one_apply]
  rw [← add_div, e]
  split <;> simp

theorem herm_positive : Positive hermPhi := by
  intro X
  unfold hermPhi
  rw [Matrix.mul_apply]
  apply Finset.sum_nonneg
  intro k _
  simp only [Matrix.star_apply]
  exact mul_self_nonneg _

theorem herm_swap (w : List Nat) : ((w.map fun n => [0, 5, 6, 7, 8, 1, 2, 3, 4].getD n n).map hermRho).prod =
    ((w.map hermRho).prod).submatrix swap12 swap12 := by
  induction w with
  | nil => simp
  | cons a t ih =>
    simp only [List.map_cons, List.prod_cons]
    rw [ih, ← Matrix.submatrix_mul_equiv _ _ swap12 swap12 swap12]
    congr 1
    ext i j
    simp only [Matrix.submatrix_apply]
    rcases Nat.lt_or_ge a 9 with ha | ha
    · have := z_sym a (List.mem_range.2 ha) (i, j)
      simp only at this
      simp only [hermRho]
      rw [this]
    · have e : [0, 5, 6, 7, 8, 1, 2, 3, 4].getD a a = a := by
        rw [List.getD_eq_getElem?_getD, List.getElem?_eq_none (by simpa using ha)]
        rfl
      rw [e, herm_out ha]
      simp

theorem herm_symmetric (r : List Nat) (hr : r ∈ sdpSymmetries hermScenario) (w : List Nat) :
    hermPhi ((w.map fun n => r.getD n n).map hermRho).prod = hermPhi (w.map hermRho).prod := by
  rw [hermSyms] at hr
  simp only [List.mem_cons, List.not_mem_nil, or_false] at hr
  rcases hr with rfl | rfl
  · congr 3
    conv_rhs => rw [← List.map_id w]
    apply List.map_congr_left
    intro x _
    have key : ∀ x ∈ List.range 9, [0, 1, 2, 3, 4, 5, 6, 7, 8].getD x x = x := by decide
    rcases Nat.lt_or_ge x 9 with h | h
    · exact key x (List.mem_range.2 h)
    · rw [List.getD_eq_getElem?_getD, List.getElem?_eq_none (by simpa using h)]
      rfl
  · rw [herm_swap]
    rfl

/-- The word `A¹¹(x=0,a=0) A²¹(x=1,a=0) A¹¹(x=1,a=0) A²¹(x=0,a=0)`. -/
def hermWord : List Nat := [1, 7, 3, 5]

theorem herm_value : hermPhi (hermWord.map hermRho).prod = -3 / 16 := by
  have e : (hermWord.map hermRho).prod =
      (1 / 16 : ℝ) • (opZ 1 * (opZ 7 * (opZ 3 * opZ 5))).map (Int.castRingHom ℝ) := by
    simp only [hermWord, List.map_cons, List.map_nil, List.prod_cons, List.prod_nil, mul_one]
    rw [hermRho_mul 3 5, hermRho_eq 7, hermRho_eq 1]
    simp only [Matrix.map_mul, Matrix.smul_mul, Matrix.mul_smul, smul_smul]
    norm_num
  rw [e]
  unfold hermPhi
  simp only [Matrix.smul_apply, Matrix.map_apply, mul_eq_mulZ, z_value]
  norm_num

theorem herm_nc_symm (a b : Nat) : padMat (hermScenario.notcomm hermDag.tbl true) a b = padMat (hermScenario.notcomm hermDag.tbl true) b a :=
  (scenario_operatorList hermScenario hermDag.tbl true).nc_symm a b

/-- In a word of four letters with non-commuting neighbours nothing can be exchanged. -/
theorem rigid4 {a b c d : Nat} {v : List Nat} (h1 : padMat (hermScenario.notcomm hermDag.tbl true) a b = true)
    (h2 : padMat (hermScenario.notcomm hermDag.tbl true) b c = true) (h3 : padMat (hermScenario.notcomm hermDag.tbl true) c d = true)
    (h : CommEq (fun a b => padMat (hermScenario.notcomm hermDag.tbl true) a b = false) [a, b, c, d] v) : v = [a, b, c, d] := by
  refine rigid herm_nc_symm h ?_
  intro u x y v e
  match u, e with
  | [], e => simp at e; rw [← e.1, ← e.2.1]; exact h1
  | [_], e => simp at e; rw [← e.2.1, ← e.2.2.1]; exact h2
  | [_, _], e => simp at e; rw [← e.2.2.1, ← e.2.2.2.1]; exact h3
  | [_, _, _], e => simp at e
  | _ :: _ :: _ :: _ :: u, e => simp at e

theorem herm_reduced : Reduced (padMat (hermScenario.notcomm hermDag.tbl true)) hermScenario.orthomat hermWord := by
  intro u a b v h
  have e := rigid4 (by decide) (by decide) (by decide) h
  match u, e with
  | [], e => simp at e; obtain ⟨rfl, rfl, _⟩ := e; decide
  | [_], e => simp at e; obtain ⟨_, rfl, rfl, _⟩ := e; decide
  | [_, _], e => simp at e; obtain ⟨_, _, rfl, rfl, _⟩ := e; decide
  | [_, _, _], e => simp at e
  | _ :: _ :: _ :: _ :: u, e => simp at e

theorem herm_least : IsLeast (padMat (hermScenario.notcomm hermDag.tbl true)) (sdpSymmetries hermScenario) hermWord hermWord := by
  rw [hermSyms]
  refine ⟨⟨[0, 1, 2, 3, 4, 5, 6, 7, 8], by simp, .refl _⟩, ?_⟩
  rintro u ⟨r, hr, h⟩
  simp only [List.mem_cons, List.not_mem_nil, or_false] at hr
  rcases hr with rfl | rfl
  · have := rigid4 (by decide) (by decide) (by decide) h
    rw [this]
    simp [LexLE, hermWord]
  · have := rigid4 (by decide) (by decide) (by decide) h
    rw [this]
    simp [LexLE, hermWord]

/-- **C46 is false.** For one party measuring two quantum sources, the first one copied twice, there is a genuine quantum model of the inflated
network – projectors that commute and are orthogonal where the problem says so and sum to one, acting on independent systems prepared in equal pure states, so
that the state is positive, normalised and invariant under the inflation symmetries – in which a moment that receives the default lower bound 0, whatever was computed before,
has the value -3/16. -/
theorem C46_default_bound_excludes_model :
    Projectors hermRho ∧
    (∀ a b, padMat (hermScenario.notcomm hermDag.tbl true) a b = false → hermRho a * hermRho b = hermRho b * hermRho a) ∧
    (∀ a b, hermScenario.orthomat a b = true → hermRho a * hermRho b = 0) ∧
    (∀ n ∈ [1, 3, 5, 7], hermRho n + hermRho (n + 1) = 1) ∧
    Positive hermPhi ∧ hermPhi 1 = 1 ∧
    (∀ r ∈ sdpSymmetries hermScenario, ∀ w : List Nat, hermPhi ((w.map fun n => r.getD n n).map hermRho).prod = hermPhi (w.map hermRho).prod) ∧
    (∀ history, (∀ c ∈ history, OkCall 9 (padMat (hermScenario.notcomm hermDag.tbl true)) hermScenario.orthomat c) →
      isHermitian (padMat (hermScenario.notcomm hermDag.tbl true)) hermScenario.orthomat false (sdpSymmetries hermScenario)
        (after (padMat (hermScenario.notcomm hermDag.tbl true)) hermScenario.orthomat false (sdpSymmetries hermScenario) history) hermWord = true ∧
      (reprMemo (padMat (hermScenario.notcomm hermDag.tbl true)) hermScenario.orthomat false (sdpSymmetries hermScenario)
        (after (padMat (hermScenario.notcomm hermDag.tbl true)) hermScenario.orthomat false (sdpSymmetries hermScenario) history) true
          hermWord).2 = hermWord) ∧
    hermPhi (hermWord.map hermRho).prod = -3 / 16 := by
  have hN : hermScenario.lexorder.length + 1 = 9 := by decide
  have H := scenario_operatorList hermScenario hermDag.tbl true
  have hS := scenario_symData hermScenario hermDag true
  rw [hN] at H hS
  have hw : ∀ x ∈ hermWord, x < 9 := by decide
  refine ⟨herm_projectors, herm_comm, herm_ortho, herm_complete, herm_positive, by simp [hermPhi], herm_symmetric, ?_, herm_value⟩
  intro history hh
  refine ⟨?_, ?_⟩
  · rw [C46_bounded_iff H hS (by simp) history hh hermWord hw herm_reduced herm_least]
    right
    rw [hermSyms]
    exact ⟨[0, 5, 6, 7, 8, 1, 2, 3, 4], by simp, .refl _⟩
  · exact isLeast_unique (C47_representative_is_least H hS (by simp) history hh true hermWord hw herm_reduced) herm_least

/-! Non-vacuity of the positive part: the same scenario, the sandwich `A¹¹ A²¹ A¹¹`. -/
example : CommEq (fun a b => padMat (hermScenario.notcomm hermDag.tbl true) a b = false) [1, 7, 1] [1, 7, 1].reverse := .refl _
example : ∃ a b, padMat (hermScenario.notcomm hermDag.tbl true) a b = true ∧ a ∈ [1, 7, 1] ∧ b ∈ [1, 7, 1] := ⟨1, 7, by decide⟩

/-! Non-vacuity without symmetries: the operators 1 and 2 do not commute, the sandwich `[1, 2, 1]`. -/
theorem ex121 {v : List Nat} (h : CommEq (fun a b => SdpRepr.exNc a b = false) [1, 2, 1] v) : v = [1, 2, 1] := by
  refine rigid (by intro a b; simp only [SdpRepr.exNc, Bool.or_comm, Bool.and_comm]) h ?_
  intro u x y v e
  match u, e with
  | [], e => simp at e; rw [← e.1, ← e.2.1]; decide
  | [_], e => simp at e; rw [← e.2.1, ← e.2.2.1]; decide
  | [_, _], e => simp at e
  | _ :: _ :: _ :: u, e => simp at e
example : Reduced SdpRepr.exNc SdpRepr.exOm [1, 2, 1] := by
  intro u a b v h
  match u, ex121 h with
  | [], e => simp at e; obtain ⟨rfl, rfl, _⟩ := e; decide
  | [_], e => simp at e; obtain ⟨_, rfl, rfl, _⟩ := e; decide
  | [_, _], e => simp at e
  | _ :: _ :: _ :: u, e => simp at e
example : SdpRepr.IsLeast SdpRepr.exNc [List.range 3] [1, 2, 1] [1, 2, 1] := by
  refine ⟨⟨List.range 3, by simp, .refl _⟩, ?_⟩
  rintro u ⟨r, hr, h⟩
  simp only [List.mem_singleton] at hr
  subst hr
  rw [ex121 h]
  simp [LexLE]
example : SymData 3 SdpRepr.exNc SdpRepr.exOm [List.range 3] where
  group := ⟨rfl, by decide, by decide, by decide⟩
  zero := by decide
  comm := by
    intro r hr a b
    simp only [List.mem_singleton] at hr
    subst hr
    rcases a with _ | _ | _ | a <;> rcases b with _ | _ | _ | b <;> simp [SdpRepr.exNc, List.range, List.range.loop]
  ortho := by
    intro r hr a b
    simp only [List.mem_singleton] at hr
    subst hr
    rcases a with _ | _ | _ | a <;> rcases b with _ | _ | _ | b <;> simp [SdpRepr.exOm, List.range, List.range.loop]

end Verif.Positivity
