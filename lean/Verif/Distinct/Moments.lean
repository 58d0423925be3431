import Verif.Distinct.Glue
/-!
Sets of operators with the same moment are related by a relabelling of the copies.
-/
namespace Verif.Distinct
open Verif.Common Verif.Scenario Verif.Orbits Verif.Components Verif.Moment Verif.State Verif.EndToEnd Verif.Sanitise Verif.SdpEnd
open Verif.Symmetry (lexorderSymmetries Relabelling inducedRow)
open Verif.CollinsGisin

variable {S : Scenario}

/-- The cache holds the atoms of the moment `m` under the factors of `a`. -/
def Holds (S : Scenario) (d : Cache) (a : List Nat) (m : Mon) : Prop :=
  ∃ ms : List Atom, ms.Perm m ∧ List.Forall₂ (fun f x => d.lookup (boolKey S.lexorder.length f) = some x) ((factorize S a).filter fun f => !f.isEmpty) ms

theorem Holds.extend {c d : Cache} {a : List Nat} {m : Mon} (h : Holds S c a m) (he : Extends c d) : Holds S d a m := by
  obtain ⟨ms, h1, h2⟩ := h
  exact ⟨ms, h1, h2.imp fun _ _ h => he _ _ h⟩

theorem monomialOf_holds {c : Cache} (hc : CacheInv S.lexorder.length (lexorderSymmetries S) c) {a : List Nat} (ha : ∀ x ∈ a, x < S.lexorder.length) :
    CacheInv S.lexorder.length (lexorderSymmetries S) (monomialOf S c a).1 ∧ Extends c (monomialOf S c a).1 ∧ Holds S (monomialOf S c a).1 a (monomialOf S c a).2 := by
  obtain ⟨h1, h2, h3⟩ := atomsOf_inv (factorize S a) c hc fun f hf x hx => ha x ((factorize_sublist hf).subset hx)
  exact ⟨h1, h2, _, (sortBy_perm _ _).symm, h3⟩

theorem factors_nonempty (hS : copiesOf S ≤ 254) {a : List Nat} (hane : a ≠ []) (ha : ∀ x ∈ a, x < S.lexorder.length) :
    (factorize S a).filter (fun f => !f.isEmpty) = factorize S a := by
  rw [List.filter_eq_self]
  intro f hf
  obtain ⟨_, a2, _, _⟩ := C09_factorization S a hane ha (capacity_of_copies S hS ha)
  simpa using (a2 f hf).1

theorem factors_opIn {fs : List (List Nat)} {a : List Nat} (h : fs.flatten.Perm a) (op : Op) : OpIn S a op ↔ ∃ f ∈ fs, OpIn S f op := by
  constructor
  · rintro ⟨i, hi, hop⟩
    obtain ⟨f, hf, hif⟩ := List.mem_flatten.1 (h.mem_iff.2 hi)
    exact ⟨f, hf, i, hif, hop⟩
  · rintro ⟨f, hf, i, hif, hop⟩
    exact ⟨i, h.mem_iff.1 (List.mem_flatten.2 ⟨f, hf, hif⟩), hop⟩

theorem factors_apart (hS : copiesOf S ≤ 254) {a : List Nat} (ha : ∀ x ∈ a, x < S.lexorder.length) :
    (factorize S a).Pairwise fun f g => ∀ x y, OpIn S f x → OpIn S g y → ¬ ShareCopy x y := by
  rw [List.pairwise_iff_getElem]
  rintro i j hi hj hij x y ⟨r, hr, hx⟩ ⟨t, ht, hy⟩
  exact C09_factors_independent S a ha (capacity_of_copies S hS ha) i j _ _ (List.getElem?_eq_getElem hi) (List.getElem?_eq_getElem hj) (by omega) r t hr ht x y hx hy

theorem shareCopy_symm {x y : Op} (h : ShareCopy x y) : ShareCopy y x := by
  obtain ⟨s, c, h0, h1, h2⟩ := h
  exact ⟨s, c, h0, h2, h1⟩

/-- **The same moment only for related sets of operators.** -/
theorem orbit_of_holds (hS : copiesOf S ≤ 254) {d : Cache} (hd : CacheInv S.lexorder.length (lexorderSymmetries S) d) {a b : List Nat}
    (ha : ∀ x ∈ a, x < S.lexorder.length) (hb : ∀ x ∈ b, x < S.lexorder.length) {m : Mon} (h1 : Holds S d a m) (h2 : Holds S d b m) :
    SameOrbit (lexorderSymmetries S) (boolKey S.lexorder.length a) (boolKey S.lexorder.length b) := by
  obtain ⟨ms, p1, f1⟩ := h1
  obtain ⟨ms', p2, f2⟩ := h2
  have hG := symmetries_isGroup S
  have empt : (factorize S []).filter (fun f => !f.isEmpty) = [] := by simp [factorize]
  by_cases hane : a = []
  · subst hane
    rw [empt] at f1
    cases f1
    have : m = [] := List.nil_perm.1 p1
    subst this
    have : ms' = [] := List.perm_nil.1 p2
    subst this
    by_cases hbne : b = []
    · subst hbne
      exact sameOrbit_refl hG (boolKey_length _ _)
    · rw [factors_nonempty hS hbne hb] at f2
      have e : factorize S b = [] := by cases h : factorize S b with
        | nil => rfl
        | cons f fs => rw [h] at f2; cases f2
      have := (C09_factorization S b hbne hb (capacity_of_copies S hS hb)).1
      rw [e] at this
      exact absurd (List.nil_perm.1 this) hbne
  · by_cases hbne : b = []
    · subst hbne
      rw [empt] at f2
      cases f2
      have : m = [] := List.nil_perm.1 p2
      subst this
      have : ms = [] := List.perm_nil.1 p1
      subst this
      rw [factors_nonempty hS hane ha] at f1
      have e : factorize S a = [] := by cases h : factorize S a with
        | nil => rfl
        | cons f fs => rw [h] at f1; cases f1
      have := (C09_factorization S a hane ha (capacity_of_copies S hS ha)).1
      rw [e] at this
      exact absurd (List.nil_perm.1 this) hane
    · rw [factors_nonempty hS hane ha] at f1
      rw [factors_nonempty hS hbne hb] at f2
      obtain ⟨a1, a2, -, -⟩ := C09_factorization S a hane ha (capacity_of_copies S hS ha)
      obtain ⟨b1, b2, -, -⟩ := C09_factorization S b hbne hb (capacity_of_copies S hS hb)
      -- match the factors
      obtain ⟨gs, g1, g2⟩ := List.perm_comp_forall₂ (p1.trans p2.symm) f2.flip
      have hflat : gs.flatten.Perm b := (g2.flatten).trans b1
      have hlen : (factorize S a).length = gs.length := f1.length_eq.trans g1.length_eq
      have hpairs : ∀ p ∈ (factorize S a).zip gs, ∃ x, d.lookup (boolKey S.lexorder.length p.1) = some x ∧ d.lookup (boolKey S.lexorder.length p.2) = some x := by
        intro p hp
        obtain ⟨i, hi, rfl⟩ := List.mem_iff_getElem.1 hp
        rw [List.length_zip] at hi
        rw [List.getElem_zip]
        rw [List.forall₂_iff_get] at f1 g1
        have ia : i < (factorize S a).length := by omega
        have im : i < ms.length := by omega
        have ig : i < gs.length := by omega
        exact ⟨ms[i], f1.2 i ia im, g1.2 i im ig⟩
      have hsymm : ∀ f g : List Nat, (∀ x y, OpIn S f x → OpIn S g y → ¬ ShareCopy x y) → ∀ x y, OpIn S g x → OpIn S f y → ¬ ShareCopy x y :=
        fun f g h x y hx hy hs => h y x hy hx (shareCopy_symm hs)
      have hgap : gs.Pairwise fun f g => ∀ x y, OpIn S f x → OpIn S g y → ¬ ShareCopy x y := (g2.pairwise_iff (hsymm _ _)).2 (factors_apart hS hb)
      have hapart := factors_apart hS ha
      obtain ⟨σ, hσ, hm⟩ := glue_all (S := S) ((factorize S a).zip gs) (by
        intro p hp
        obtain ⟨x, l1, l2⟩ := hpairs p hp
        have hp1 := (List.of_mem_zip hp).1
        have hp2 := g2.mem_iff.1 (List.of_mem_zip hp).2
        refine moved_of_orbit (fun x hx => ha x ((a2 _ hp1).2.subset hx)) (fun x hx => hb x ((b2 _ hp2).2.subset hx)) ?_
        exact sameOrbit_trans hG (hd.orbit _ _ l1) (sameOrbit_symm hG (boolKey_length _ _) (hd.orbit _ _ l2))) (by
        rw [List.pairwise_iff_getElem] at hapart hgap ⊢
        intro i j hi hj hij
        rw [List.length_zip] at hi hj
        rw [List.getElem_zip, List.getElem_zip]
        exact ⟨hapart i j (by omega) (by omega) hij, hgap i j (by omega) (by omega) hij⟩)
      refine orbit_of_moved hσ ⟨?_, ?_⟩
      · intro op hop
        obtain ⟨g, hg, hog⟩ := (factors_opIn hflat op).1 hop
        obtain ⟨i, hi, rfl⟩ := List.mem_iff_getElem.1 hg
        have hz : ((factorize S a)[i]'(by omega), gs[i]) ∈ (factorize S a).zip gs := by
          rw [← List.getElem_zip (h := by rw [List.length_zip]; omega)]
          exact List.getElem_mem _
        exact (factors_opIn a1 _).2 ⟨_, List.getElem_mem _, (hm _ hz).1 op hog⟩
      · intro op' hop'
        obtain ⟨f, hf, hof⟩ := (factors_opIn a1 op').1 hop'
        obtain ⟨i, hi, rfl⟩ := List.mem_iff_getElem.1 hf
        have hz : ((factorize S a)[i], gs[i]'(by omega)) ∈ (factorize S a).zip gs := by
          rw [← List.getElem_zip (h := by rw [List.length_zip]; omega)]
          exact List.getElem_mem _
        obtain ⟨op, h3, h4⟩ := (hm _ hz).2 op' hof
        exact ⟨op, (factors_opIn hflat _).2 ⟨_, List.getElem_mem _, h3⟩, h4⟩

/-- The loop over the columns keeps the cache consistent; at its end it holds all moments. -/
theorem columnMoments_holds : ∀ (vs : List (List Bool)) (c : Cache), CacheInv S.lexorder.length (lexorderSymmetries S) c → (∀ v ∈ vs, v.length = S.lexorder.length) →
    ∃ d, CacheInv S.lexorder.length (lexorderSymmetries S) d ∧ Extends c d ∧ List.Forall₂ (fun v m => Holds S d (flatnonzero v) m) vs (columnMoments S c vs) := by
  intro vs
  induction vs with
  | nil => exact fun c hc _ => ⟨c, hc, .refl c, .nil⟩
  | cons v vs ih =>
    intro c hc hv
    obtain ⟨h1, h2, h3⟩ := monomialOf_holds hc (flatnonzero_lt (hv v (List.mem_cons_self ..)))
    obtain ⟨d, i1, i2, i3⟩ := ih _ h1 fun w hw => hv w (List.mem_cons_of_mem _ hw)
    exact ⟨d, i1, h2.trans i2, .cons (h3.extend i2) i3⟩

/-- Columns that are pairwise unrelated have different moments. -/
theorem columnMoments_nodup (hS : copiesOf S ≤ 254) {vs : List (List Bool)} (hv : ∀ v ∈ vs, v.length = S.lexorder.length)
    (hp : vs.Pairwise fun v w => ¬ SameOrbit (lexorderSymmetries S) v w) : (columnMoments S [] vs).Nodup := by
  obtain ⟨d, h1, -, h2⟩ := columnMoments_holds vs [] inv_nil hv
  rw [List.forall₂_iff_get] at h2
  unfold List.Nodup
  rw [List.pairwise_iff_getElem] at hp ⊢
  intro i j hi hj hij e
  have i' : i < vs.length := by omega
  have j' : j < vs.length := by omega
  have hi' := hv vs[i] (List.getElem_mem _)
  have hj' := hv vs[j] (List.getElem_mem _)
  have a1 := h2.2 i i' hi
  have a2 := h2.2 j j' hj
  simp only [List.get_eq_getElem] at a1 a2
  rw [← e] at a2
  have := orbit_of_holds hS h1 (flatnonzero_lt hi') (flatnonzero_lt hj') a1 a2
  rw [← hi', boolKey_flatnonzero] at this
  rw [hi', ← hj', boolKey_flatnonzero] at this
  exact hp i j i' j' hij this

end Verif.Distinct
