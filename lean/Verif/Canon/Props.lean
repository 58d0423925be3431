import Verif.Canon.Full
import Mathlib.Algebra.BigOperators.Group.List.Basic
import Mathlib.Algebra.GroupWithZero.Basic
import Mathlib.LinearAlgebra.Matrix.Notation
/-!
# Properties C01 – C05: canonical forms of monomials

`toCanonical nc om commuting onlyComm w` models `to_canonical_1d_internal`; `nc` is the `notcomm`
matrix, `om` the orthogonality matrix, `w` the monomial as a list of operator ranks.
-/
namespace Verif.Canon
open Spec

/-! ## helper facts about products -/
section Products
variable {M : Type*} [MonoidWithZero M] (φ : Nat → M)

theorem prod_commEq {comm : Nat → Nat → Prop} {u v : List Nat} (h : CommEq comm u v)
    (hc : ∀ a ∈ u, ∀ b ∈ u, comm a b → φ a * φ b = φ b * φ a) :
    (u.map φ).prod = (v.map φ).prod := by
  induction h with
  | refl w => rfl
  | symm h ih =>
    exact (ih fun a ha b hb => hc a (h.perm.mem_iff.1 ha) b (h.perm.mem_iff.1 hb)).symm
  | trans h1 _ ih1 ih2 =>
    exact (ih1 hc).trans (ih2 fun a ha b hb => hc a (h1.perm.mem_iff.2 ha) b (h1.perm.mem_iff.2 hb))
  | swap u a b v hab =>
    simp only [List.map_append, List.map_cons, List.prod_append, List.prod_cons]
    rw [← mul_assoc (φ a), ← mul_assoc (φ b), hc a (by simp) b (by simp) hab]

theorem prod_removeSquares (w : List Nat) (hi : ∀ a ∈ w, φ a * φ a = φ a) :
    ((removeSquares w).map φ).prod = (w.map φ).prod := by
  fun_induction removeSquares w with
  | case1 => rfl
  | case2 a => rfl
  | case3 b t ih =>
    rw [ih fun a ha => hi a (List.mem_cons_of_mem _ ha)]
    simp only [List.map_cons, List.prod_cons]
    rw [← mul_assoc, hi b (by simp)]
  | case4 a b t hne ih =>
    rw [List.map_cons, List.prod_cons, ih fun a ha => hi a (List.mem_cons_of_mem _ ha)]
    simp

theorem prod_hasOrthoPair (om : BMat) (w : List Nat)
    (ho : ∀ a ∈ w, ∀ b ∈ w, om a b = true → φ b * φ a = 0)
    (h : hasOrthoPair om w = true) : (w.map φ).prod = 0 := by
  fun_induction hasOrthoPair om w with
  | case1 => simp at h
  | case2 a => simp at h
  | case3 a b t ih =>
    simp only [Bool.or_eq_true] at h
    rcases h with h | h
    · simp only [List.map_cons, List.prod_cons]
      rw [← mul_assoc, ho b (by simp) a (by simp) h, zero_mul]
    · rw [List.map_cons, List.prod_cons,
        ih (fun x hx y hy => ho x (List.mem_cons_of_mem _ hx) y (List.mem_cons_of_mem _ hy)) h, mul_zero]

end Products

/-! ## C01 -/

/-- **C01.** Let the operators occurring in `w` be interpreted by any elements of any algebra that
are projectors, commute where `notcomm` does not say otherwise, have product zero where `orthomat`
says so, rank 0 being the zero operator.  Then the canonical form denotes the same product. -/
theorem C01_canonical_preserves_operator {M : Type*} [MonoidWithZero M] (φ : Nat → M)
    (nc om : BMat) (w : List Nat)
    (hzero : φ 0 = 0)
    (hcomm : ∀ a ∈ w, ∀ b ∈ w, nc a b = false → φ a * φ b = φ b * φ a)
    (hproj : ∀ a ∈ w, φ a * φ a = φ a)
    (hortho : ∀ a ∈ w, ∀ b ∈ w, om a b = true → φ b * φ a = 0) :
    ((toCanonical nc om false false w).map φ).prod = (w.map φ).prod := by
  have hs := canon_sound nc w
  have hmem : ∀ x, x ∈ lexmonToCanonical nc w → x ∈ w := fun x hx => hs.perm.mem_iff.2 hx
  have hp : (w.map φ).prod = ((lexmonToCanonical nc w).map φ).prod := prod_commEq φ hs hcomm
  rw [toCanonical_eq]
  split
  · rename_i hz
    rw [hp, prod_hasOrthoPair φ om _ (fun a ha b hb => hortho a (hmem a ha) b (hmem b hb)) hz]
    simp [removeSquares, hzero]
  · rw [prod_removeSquares φ _ (fun a ha => hproj a (hmem a ha)), hp]

/-- **C01, commutations only.** With `apply_only_commutations=True` no projector or orthogonality
assumption is needed. -/
theorem C01_commutations_only_preserves_operator {M : Type*} [MonoidWithZero M] (φ : Nat → M)
    (nc om : BMat) (w : List Nat)
    (hcomm : ∀ a ∈ w, ∀ b ∈ w, nc a b = false → φ a * φ b = φ b * φ a) :
    ((toCanonical nc om false true w).map φ).prod = (w.map φ).prod := by
  unfold toCanonical
  split
  · rfl
  · simpa using (prod_commEq φ (canon_sound nc w) hcomm).symm

/-- **C01, commuting problems** (`commuting=True`, everything commutes). -/
theorem C01_commuting_preserves_operator {M : Type*} [MonoidWithZero M] (φ : Nat → M)
    (nc om : BMat) (w : List Nat) (hzero : φ 0 = 0)
    (hcomm : ∀ a ∈ w, ∀ b ∈ w, φ a * φ b = φ b * φ a)
    (hproj : ∀ a ∈ w, φ a * φ a = φ a)
    (hortho : ∀ a ∈ w, ∀ b ∈ w, om a b = true → φ b * φ a = 0) :
    ((toCanonical nc om true false w).map φ).prod = (w.map φ).prod := by
  unfold toCanonical
  split
  · rfl
  · simp only [if_true, Bool.false_eq_true, if_false]
    have hperm : (ascending w).Perm w := ascending_perm _
    have hp : ((ascending w).map φ).prod = (w.map φ).prod :=
      (prod_commEq (comm := fun a b => φ a * φ b = φ b * φ a) φ
        (CommEq.of_perm hperm.symm hcomm) (fun _ _ _ _ h => h)).symm
    split
    · rename_i hz
      simp only [lexmonIsZero, Bool.or_eq_true, beq_iff_eq] at hz
      rcases hz with hz | hz
      · rw [← hp, hz]; simp [removeSquares]
      · rw [← hp, prod_hasOrthoPair φ om _ (fun a ha b hb =>
          hortho a (hperm.mem_iff.1 ha) b (hperm.mem_iff.1 hb)) hz]
        simp [removeSquares, hzero]
    · rw [prod_removeSquares φ _ (fun a ha => hproj a (hperm.mem_iff.1 ha)), hp]

/-! ## C02 -/

/-- **C02.** For a symmetric commutation matrix with empty diagonal, two monomials have the same
commutation-canonical form iff they are related by exchanging neighbouring commuting operators. -/
theorem C02_canonical_decides_commutation (nc om : BMat)
    (hsym : ∀ a b, nc a b = nc b a) (hdiag : ∀ a, nc a a = false) (u v : List Nat) :
    toCanonical nc om false true u = toCanonical nc om false true v ↔
      CommEq (fun a b => nc a b = false) u v := by
  have e : ∀ w, toCanonical nc om false true w = lexmonToCanonical nc w := by
    intro w
    unfold toCanonical
    match w with
    | [] => simp [lexmonToCanonical]
    | [a] => simp [lexmonToCanonical]
    | a :: b :: t => simp
  rw [e, e]
  constructor
  · intro h
    have h1 := canon_sound nc u
    rw [h] at h1
    exact h1.trans (canon_sound nc v).symm
  · exact canon_complete hsym hdiag

/-! ## C03 -/

/-- **C03.** For the operator list of a problem, two monomials have the same canonical form iff they
are equal modulo commutations, `P P = P`, and orthogonality of the outcomes of a measurement. -/
theorem C03_canonical_decides_operator_equality {N : Nat} {nc om : BMat} {meas : Nat → Nat}
    (H : OperatorList N nc om meas) (u v : List Nat)
    (hu : ∀ x ∈ u, x < N) (hv : ∀ x ∈ v, x < N) :
    toCanonical nc om false false u = toCanonical nc om false false v ↔
      OpEq N (fun a b => nc a b = false) (fun a b => om a b = true) u v := by
  constructor
  · intro h
    have h1 := OpEq_flip H (toCanonical_opEq nc om u hu)
    rw [h] at h1
    exact h1.trans (OpEq_flip H (toCanonical_opEq nc om v hv)).symm
  · intro h
    exact (toCanonical_opEq_eq H h).2 hu

/-- **C03, zero.** In particular the canonical form is the zero operator iff the monomial is zero
modulo the relations. -/
theorem C03_canonical_detects_zero {N : Nat} {nc om : BMat} {meas : Nat → Nat}
    (H : OperatorList N nc om meas) (u : List Nat) (hu : ∀ x ∈ u, x < N) :
    toCanonical nc om false false u = [0] ↔
      OpEq N (fun a b => nc a b = false) (fun a b => om a b = true) u [0] := by
  rw [← C03_canonical_decides_operator_equality H u [0] hu (by simp [H.pos])]
  simp [toCanonical]

/-! ## C04 -/

/-- **C04, minimality.** The commutation-canonical form is reachable by swaps and is lexicographically least among
all words reachable by swaps. -/
theorem C04_canonical_is_lex_least (nc om : BMat)
    (hsym : ∀ a b, nc a b = nc b a) (hdiag : ∀ a, nc a a = false) (w : List Nat) :
    CommEq (fun a b => nc a b = false) w (toCanonical nc om false true w) ∧
    ∀ v, CommEq (fun a b => nc a b = false) w v →
      LexLE (toCanonical nc om false true w) v := by
  have e : toCanonical nc om false true w = lexmonToCanonical nc w := by
    unfold toCanonical
    match w with
    | [] => simp [lexmonToCanonical]
    | [a] => simp [lexmonToCanonical]
    | a :: b :: t => simp
  rw [e]
  exact ⟨canon_sound nc w, fun v h => lexLE_of_le (canon_min hsym hdiag w v h)⟩

theorem hasOrthoPair_removeSquares {om : BMat} {w : List Nat} (h : hasOrthoPair om w = false) :
    hasOrthoPair om (removeSquares w) = false := by
  fun_induction removeSquares w with
  | case1 => exact h
  | case2 a => exact h
  | case3 b t ih => simp only [hasOrthoPair, Bool.or_eq_false_iff] at h; exact ih h.2
  | case4 a b t hne ih =>
    simp only [hasOrthoPair, Bool.or_eq_false_iff] at h
    have := ih h.2
    obtain ⟨T, hT⟩ := removeSquares_head b t
    rw [hT] at this ⊢
    simp [hasOrthoPair, h.1, this]

theorem removeSquares_noRep {w : List Nat} (h : NoRep w) : removeSquares w = w := by
  fun_induction removeSquares w with
  | case1 => rfl
  | case2 a => rfl
  | case3 b t ih => exact absurd rfl h.1
  | case4 a b t hne ih => rw [ih h.2]

/-- **C04, idempotence** of the full canonical form and of the commutation-canonical form. -/
theorem C04_canonical_idempotent (nc om : BMat)
    (hsym : ∀ a b, nc a b = nc b a) (hdiag : ∀ a, nc a a = false) (onlyComm : Bool) (w : List Nat) :
    toCanonical nc om false onlyComm (toCanonical nc om false onlyComm w) =
      toCanonical nc om false onlyComm w := by
  cases onlyComm with
  | true =>
    rw [C02_canonical_decides_commutation nc om hsym hdiag]
    exact (C04_canonical_is_lex_least nc om hsym hdiag w).1.symm
  | false =>
    rw [toCanonical_eq (w := w)]
    split
    · simp [removeSquares, toCanonical]
    · rename_i hz
      have hn := normal_removeSquares (canon_normal hsym hdiag w)
      have hr := noRep_removeSquares (lexmonToCanonical nc w)
      rw [toCanonical_eq, canon_of_normal hsym hdiag hn]
      simp only [Bool.not_eq_true] at hz
      rw [hasOrthoPair_removeSquares hz]
      simp [removeSquares_noRep hr]

/-! ## C05 -/

/-- **C05.** If no two operators of the monomial fail to commute, the shortcut `commuting=True`
returns what the general algorithm returns, for both values of `apply_only_commutations`. -/
theorem C05_commuting_shortcut_agrees (nc om : BMat) (onlyComm : Bool) (w : List Nat)
    (h : ∀ a ∈ w, ∀ b ∈ w, nc a b = false) :
    toCanonical nc om true onlyComm w = toCanonical nc om false onlyComm w := by
  unfold toCanonical
  split
  · rfl
  · rename_i hl
    have hl' : 2 ≤ w.length := by omega
    have hany : subAny nc w = false := by
      simp only [subAny, List.any_eq_false, Bool.not_eq_true]
      exact h
    have : lexmonToCanonical nc w = ascending w := by
      rcases canon_cases nc w hl' with ⟨h1, _⟩ | ⟨_, e⟩ | ⟨_, h2, _⟩
      · match w, hl' with
        | a :: t, _ =>
          have := h a (by simp) a (by simp)
          simp [subAll, this] at h1
      · exact e
      · rw [hany] at h2; simp at h2
    simp [this]

/-! ## Non-vacuity -/

/-- Two non-commuting two-outcome measurements: ranks 1,2 and 3,4; rank 0 is zero. -/
def exNc : BMat := fun a b => decide (0 < a ∧ 0 < b ∧ (a - 1) / 2 ≠ (b - 1) / 2)
def exOm : BMat := fun a b => decide (a = 0 ∨ b = 0 ∨ (a ≠ b ∧ (a - 1) / 2 = (b - 1) / 2))

/-- The hypotheses of C02–C04 are met by a genuinely non-commuting operator list. -/
theorem exOperatorList : OperatorList 5 exNc exOm (fun a => (a - 1) / 2) where
  pos := by omega
  nc_symm := by intro a b; simp only [exNc, decide_eq_decide]; omega
  nc_diag := by intro a; simp [exNc]
  nc_meas := by intro a b c _ _ _ _ h; simp only [exNc, decide_eq_decide]; omega
  contiguous := by intro a b c; omega
  ortho_iff := by intro a b _ _; simp [exOm]

example : toCanonical exNc exOm false false [3, 1, 1, 3] = [3, 1, 3] := by
  simp [toCanonical, lexmonToCanonical, splitStep, scanMin, subAll, subAny, exNc, exOm,
    lexmonIsZero, hasOrthoPair, removeSquares]
example : exNc 1 3 = true ∧ exNc 1 2 = false ∧ exOm 1 2 = true := by decide
/-- Two non-commuting pairs of complementary 2×2 idempotents. -/
def exPhi : Nat → Matrix (Fin 2) (Fin 2) Int
  | 1 => !![1, 0; 0, 0]
  | 2 => !![0, 0; 0, 1]
  | 3 => !![1, 1; 0, 0]
  | 4 => !![0, -1; 0, 1]
  | _ => 0

/-- C01's hypotheses hold for these matrices on the word `[3, 1, 2, 4, 3]`, and the matrices
interpreting ranks 1 and 3 do not commute. -/
example : exPhi 0 = 0 ∧
    (∀ a ∈ [3, 1, 2, 4, 3], ∀ b ∈ [3, 1, 2, 4, 3], exNc a b = false →
      exPhi a * exPhi b = exPhi b * exPhi a) ∧
    (∀ a ∈ [3, 1, 2, 4, 3], exPhi a * exPhi a = exPhi a) ∧
    (∀ a ∈ [3, 1, 2, 4, 3], ∀ b ∈ [3, 1, 2, 4, 3], exOm a b = true → exPhi b * exPhi a = 0) ∧
    exPhi 1 * exPhi 3 ≠ exPhi 3 * exPhi 1 := by decide

end Verif.Canon
