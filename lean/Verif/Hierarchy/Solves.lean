import Verif.Hierarchy.Cells
import Verif.SdpEnd.Solve
/-!
A solution of the semidefinite program of a larger generating set, restricted to the moments of a smaller one, is a solution of its program.
-/
namespace Verif.Hierarchy
open Verif.Common Verif.Canon Verif.Canon.Spec Verif.Scenario Verif.Components Verif.Moment Verif.MomentMatrix Verif.SymMM Verif.SdpRepr Verif.SdpEnd Verif.SdpNames Verif.Symmetry Verif.Generate
open Verif.State (Dict Mon)
open Verif.EndToEnd (Input)

variable {I : Input} {ch : Choice} {name : Atom → String}

/-- **The moments.** The moments of a program are the moments of the products of two monomials of the generating set. -/
theorem moments_iff (hch : UsualChoice ch I) {cols : List (List Nat)} {B : Built} (hV : Setup I cols ch name B) (m : Mon) :
    m ∈ B.env.moments ↔ ∃ m1 ∈ cols, ∃ m2 ∈ cols, m = productMoment I ch name m1 m2 := by
  obtain ⟨orbits, repr, c, eqs, h1, h2, h3, _, _, _, henv⟩ := build_some hV.built
  obtain ⟨hnd, hc1, hc2⟩ := symmetrizedCorresp_get h2
  have hkeys : B.index.keys.Nodup := by rw [h3]; exact momentIndex_nodup ch name _ c
  have hmom : B.env.moments = B.index.map Prod.snd := by rw [henv]
  rw [hmom]
  have hlen : B.sym.length = cols.length * cols.length := by
    have hcon := consistent (operatorList I) (symData I) hV.columns
    obtain ⟨sym', orbits', repr', e', hlen, _⟩ := C19_symmetrization hcon
    have e2 : (some (B.sym, orbits, repr) : Option _) = some (sym', orbits', repr') := by
      rw [← h1, ← e']; rfl
    simp only [Option.some.injEq, Prod.mk.injEq] at e2
    rw [e2.1]; exact hlen
  constructor
  · intro hm
    obtain ⟨⟨k, m'⟩, ht, rfl⟩ := List.mem_map.1 hm
    have hg := (State.get_of_mem _ hkeys k m').1 ht
    have hk : k ∈ B.sym := by
      rw [h3, momentIndex_get ch name _ c hnd] at hg
      rcases hck : c.get k with _ | w
      · rw [hck] at hg
        dsimp only at hg
        split at hg
        · rename_i h
          rw [h.2]
          exact List.contains_iff_mem.1 h.1
        · cases hg
      · obtain ⟨a, b, _, _, _, _, hab, _⟩ := index_cell hV.columns h1 h2 hck
        exact List.mem_of_getElem? hab
    obtain ⟨x, hx, e⟩ := List.getElem_of_mem hk
    have hxlt : x < cols.length * cols.length := by rw [← hlen]; exact hx
    have hn0 : 0 < cols.length := by
      rcases Nat.eq_zero_or_pos cols.length with h | h
      · rw [h] at hxlt; omega
      · exact h
    have hxi : x / cols.length < cols.length := Nat.div_lt_of_lt_mul hxlt
    have hxj : x % cols.length < cols.length := Nat.mod_lt _ hn0
    have hxe : x / cols.length * cols.length + x % cols.length = x := by rw [Nat.mul_comm]; exact Nat.div_add_mod x _
    obtain ⟨k', q1, q2⟩ := cell_moment hch hV (List.getElem?_eq_getElem hxi) (List.getElem?_eq_getElem hxj)
    rw [hxe, List.getElem?_eq_getElem hx, e] at q1
    have := Option.some.inj q1
    subst this
    rw [hg] at q2
    exact ⟨_, List.getElem_mem hxi, _, List.getElem_mem hxj, Option.some.inj q2⟩
  · rintro ⟨m1, hm1, m2, hm2, rfl⟩
    obtain ⟨i, hi⟩ := List.getElem?_of_mem hm1
    obtain ⟨j, hj⟩ := List.getElem?_of_mem hm2
    obtain ⟨k, q1, q2⟩ := cell_moment hch hV hi hj
    exact List.mem_map.2 ⟨(k, _), (State.get_of_mem _ hkeys _ _).2 q2, rfl⟩

/-- **More monomials give more moments.** -/
theorem moments_mono (hch : UsualChoice ch I) {cols₁ cols₂ : List (List Nat)} {B₁ B₂ : Built} (hV₁ : Setup I cols₁ ch name B₁) (hV₂ : Setup I cols₂ ch name B₂)
    (hsub : ∀ m ∈ cols₁, m ∈ cols₂) : ∀ m ∈ B₁.env.moments, m ∈ B₂.env.moments := by
  intro m hm
  obtain ⟨m1, h1, m2, h2, e⟩ := (moments_iff hch hV₁ m).1 hm
  exact (moments_iff hch hV₂ m).2 ⟨m1, hsub _ h1, m2, hsub _ h2, e⟩

/-! ### The matrices -/

/-- Cell by cell, the moment matrix of an assignment holds the numbers of the products of the rows and the columns. -/
theorem momentMatrix_cell (hch : UsualChoice ch I) {cols : List (List Nat)} {B : Built} (hV : Setup I cols ch name B) (a : SdpState.Args) (v : Option Mon → ℝ) (i j : Fin cols.length) :
    (solverInput cols.length B a).momentMatrix v i j = v (some (productMoment I ch name cols[i] cols[j])) := by
  obtain ⟨k, hk, e⟩ := cell_moment hch hV (List.getElem?_eq_getElem i.2) (List.getElem?_eq_getElem j.2)
  have hnd : B.index.keys.Nodup := by
    obtain ⟨_, _, c, _, _, _, h3, _⟩ := build_some hV.built
    rw [h3]; exact momentIndex_nodup ch name _ c
  show (((B.index.map fun (t : Nat × Mon) => ((some t.2 : Option Mon), fun (i j : Fin cols.length) => if B.sym[i.val * cols.length + j.val]? = some t.1 then (1 : ℝ) else 0)) ++ [(none, fun _ _ => 0)]).map
    fun (t : Option Mon × (Fin cols.length → Fin cols.length → ℝ)) => t.2 i j * v t.1).sum = _
  rw [List.map_append, List.map_map, List.sum_append]
  have := sum_select B.index hnd (fun m => v (some m)) (B.sym[i.val * cols.length + j.val]?)
  rw [hk] at this
  simp only [List.map_cons, List.map_nil, List.sum_cons, List.sum_nil, zero_mul, add_zero]
  rw [Option.bind_some, e] at this
  rw [show v (some (productMoment I ch name cols[i] cols[j])) = ((Option.map (fun m => v (some m)) (some (productMoment I ch name cols[i] cols[j]))).getD 0) from rfl]
  refine Eq.trans ?_ this
  congr 1
  apply List.map_congr_left
  intro t _
  simp only [Function.comp_apply]
  rw [hk]

/-- A principal submatrix of a positive semidefinite matrix. -/
theorem psd_sub {n p : Nat} {M : SdpSolver.Mat p ℝ} (hM : SdpSolver.PSD M) (e : Fin n → Fin p) : SdpSolver.PSD fun i j => M (e i) (e j) := by
  refine ⟨fun i j => hM.symm _ _, fun x => ?_⟩
  have h := hM.nonneg fun k => ∑ i, if e i = k then x i else 0
  refine h.trans_eq ?_
  unfold SdpSolver.quad
  have e1 : ∀ k l : Fin p, (∑ i, if e i = k then x i else 0) * M k l * (∑ j, if e j = l then x j else 0) =
      ∑ i, ∑ j, (if e i = k then (if e j = l then x i * M k l * x j else 0) else 0) := by
    intro k l
    rw [Finset.sum_mul, Finset.sum_mul]
    apply Finset.sum_congr rfl
    intro i _
    rw [Finset.mul_sum]
    apply Finset.sum_congr rfl
    intro j _
    split <;> split <;> ring
  simp only [e1]
  rw [Finset.sum_congr rfl fun k _ => Finset.sum_comm, Finset.sum_comm]
  apply Finset.sum_congr rfl
  intro i _
  rw [Finset.sum_congr rfl fun k _ => Finset.sum_comm, Finset.sum_comm]
  apply Finset.sum_congr rfl
  intro j _
  simp

/-- **The positivity constraint.** -/
theorem psd_restrict (hch : UsualChoice ch I) {cols₁ cols₂ : List (List Nat)} {B₁ B₂ : Built} (hV₁ : Setup I cols₁ ch name B₁) (hV₂ : Setup I cols₂ ch name B₂)
    (hsub : ∀ m ∈ cols₁, m ∈ cols₂) (a₁ a₂ : SdpState.Args) {v : Option Mon → ℝ} {s : ℝ}
    (h : SdpSolver.PSD fun i j => (solverInput cols₂.length B₂ a₂).momentMatrix v i j - if i = j then s else 0) :
    SdpSolver.PSD fun i j => (solverInput cols₁.length B₁ a₁).momentMatrix v i j - if i = j then s else 0 := by
  have hex : ∀ i : Fin cols₁.length, ∃ k : Fin cols₂.length, cols₂[k] = cols₁[i] := by
    intro i
    obtain ⟨k, hk, e⟩ := List.getElem_of_mem (hsub _ (List.getElem_mem i.2))
    exact ⟨⟨k, hk⟩, e⟩
  choose e he using hex
  have hinj : ∀ i j, e i = e j ↔ i = j := by
    intro i j
    refine ⟨fun h => ?_, fun h => by rw [h]⟩
    have h1 := he i
    rw [h, he j] at h1
    exact Fin.ext (hV₁.columns.nodup.getElem_inj_iff.1 h1).symm
  have := psd_sub h e
  refine ⟨?_, ?_⟩
  · intro i j
    have := this.symm i j
    simp only [momentMatrix_cell hch hV₁, momentMatrix_cell hch hV₂, he, hinj] at this ⊢
    exact this
  · intro x
    have := this.nonneg x
    simp only [momentMatrix_cell hch hV₁, momentMatrix_cell hch hV₂, he, hinj] at this ⊢
    exact this

/-- **Restriction of a solution.** If every value, proportionality and linear constraint given to the solver with the smaller generating set holds in a solution of the program of the larger one, the
solution solves the program of the smaller one as well. -/
theorem solves_restrict (hch : UsualChoice ch I) {cols₁ cols₂ : List (List Nat)} {B₁ B₂ : Built} (hV₁ : Setup I cols₁ ch name B₁) (hV₂ : Setup I cols₂ ch name B₂)
    (hsub : ∀ m ∈ cols₁, m ∈ cols₂) {a₁ a₂ : SdpState.Args} {v : Option Mon → ℝ} {s : ℝ} (h : (solverInput cols₂.length B₂ a₂).Solves false v s)
    (hk : ∀ t ∈ a₁.known, v t.1 = ((t.2 : Rat) : ℝ)) (hs : ∀ t ∈ a₁.semi, v (some t.1) = ((t.2.1 : Rat) : ℝ) * v (some t.2.2))
    (hi : ∀ d ∈ a₁.inequalities, 0 ≤ SdpSolver.lin (realRow d) v) (he : ∀ d ∈ a₁.equalities, SdpSolver.lin (realRow d) v = 0) : (solverInput cols₁.length B₁ a₁).Solves false v s where
  known := by
    intro t ht
    obtain ⟨u, hu, rfl⟩ := List.mem_map.1 (show t ∈ realRow a₁.known from ht)
    exact hk u hu
  semi := by
    intro t ht
    obtain ⟨u, hu, rfl⟩ := List.mem_map.1 (show t ∈ a₁.semi.map fun t => (some t.1, ((t.2.1 : Rat) : ℝ), some t.2.2) from ht)
    exact hs u hu
  ineq := by
    intro d hd
    obtain ⟨u, hu, rfl⟩ := List.mem_map.1 (show d ∈ a₁.inequalities.map realRow from hd)
    exact hi u hu
  eq := by
    intro d hd
    obtain ⟨u, hu, rfl⟩ := List.mem_map.1 (show d ∈ a₁.equalities.map realRow from hd)
    exact he u hu
  psd := psd_restrict hch hV₁ hV₂ hsub a₁ a₂ h.psd
  sign := by intro h; cases h

end Verif.Hierarchy
