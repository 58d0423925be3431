import Verif.Factorised.Model
import Verif.Views.Props
import Verif.Distinct.Props
/-
**C63.** The factorization conditions: they can always be computed, there is one for each moment that is a product, and they hold in every model of the network.
-/
namespace Verif.Factorised
open Verif.Common Verif.Moment Verif.State Verif.EndToEnd Verif.Sanitise Verif.Distinct Verif.Orbits
open Verif.SdpEnd (copiesOf)
open Verif.Views (mapM_right foldl_set_eq)

variable {I : Input} {names order : List Text.Str}

theorem fromAtoms_eq {s : Session} {l : Mon} (h : l ∈ s.created) : fromAtoms s l = some l := if_pos h

theorem mapM_some {α β : Type} {f : α → Option β} {g : α → β} {l : List α} (h : ∀ a ∈ l, f a = some (g a)) : l.mapM f = some (l.map g) := by
  induction l with
  | nil => rfl
  | cons a l ih =>
    rw [List.mapM_cons, h a (by simp), ih fun a ha => h a (by simp [ha])]
    rfl

theorem sorted_of (hm : m ∈ I.monomials) : sortBy atomLe m = m := columnMoments_sorted _ _ m hm

/-- A sorted list's suffix is sorted. -/
theorem sub_moment (hI : I.Accepted) (hS : copiesOf I.scenario ≤ 254) {m : Mon} (hm : m ∈ I.monomials) {l : Mon} (hl : l.Sublist m) : l ∈ I.monomials := by
  have h1 := C61_factors_are_moments hI hS hm hl.subperm
  have hp : m.Pairwise fun a b => atomLe a b = true := by
    rw [← sorted_of hm]
    exact sortBy_sorted atomLe atomLe_total atomLe_trans m
  have h2 : sortBy atomLe l = l :=
    (sortBy_perm atomLe l).eq_of_pairwise (fun a b _ _ h h' => atomLe_antisymm a b h h') (sortBy_sorted atomLe atomLe_total atomLe_trans l) (hp.sublist hl)
  rwa [h2] at h1

theorem mem_products {m : Mon} : m ∈ products I ↔ m ∈ I.monomials ∧ 1 < m.length := by
  unfold products
  rw [List.mem_filter, decide_eq_true_eq]

theorem products_nodup (hI : I.Accepted) (hS : copiesOf I.scenario ≤ 254) : (products I).Nodup := (monomials_nodup hI hS).filter _

theorem conditions_eq (hI : I.Accepted) (hS : copiesOf I.scenario ≤ 254) (hN : NamesOk I names) {s : Session} (hr : Reachable I names order s) :
    conditions I s = some ((products I).map fun m => (m, m.map fun f => [f])) := by
  unfold conditions
  refine mapM_some fun m hm => ?_
  rw [mapM_some (g := fun f => [f])]
  · rfl
  · intro f hf
    exact fromAtoms_eq (C60_monomials_in_table hI hN hr (sub_moment hI hS (mem_products.1 hm).1 (List.singleton_sublist.2 hf)))

theorem quadratic_eq (hI : I.Accepted) (hS : copiesOf I.scenario ≤ 254) (hN : NamesOk I names) {s : Session} (hr : Reachable I names order s) :
    quadratic I s = some ((products I).map fun m => (m, m.take 1, m.drop 1)) := by
  unfold quadratic
  refine mapM_some fun m hm => ?_
  rw [fromAtoms_eq (C60_monomials_in_table hI hN hr (sub_moment hI hS (mem_products.1 hm).1 (List.take_sublist 1 m))),
    fromAtoms_eq (C60_monomials_in_table hI hN hr (sub_moment hI hS (mem_products.1 hm).1 (List.drop_sublist 1 m)))]
  rfl

/-- **C63 (existence and shape).** In every state of the program, `factorization_conditions` can be computed: it has one entry for each moment of the program that is a product of at least two
factors, which lists moments of the program with one factor each, whose factors together are those of the product. -/
theorem C63_conditions (hI : I.Accepted) (hS : copiesOf I.scenario ≤ 254) (hN : NamesOk I names) {s : Session} (hr : Reachable I names order s) :
    ∃ L, conditions I s = some L ∧ (L.map Prod.fst).Nodup ∧ (∀ m, m ∈ L.map Prod.fst ↔ m ∈ I.monomials ∧ 1 < m.length) ∧
      ∀ t ∈ L, t.2.flatten = t.1 ∧ ∀ f ∈ t.2, f.length = 1 ∧ f ∈ I.monomials := by
  refine ⟨_, conditions_eq hI hS hN hr, ?_, ?_, ?_⟩
  · simpa [Function.comp_def] using products_nodup hI hS
  · intro m
    simp [Function.comp_def, mem_products]
  · intro t ht
    obtain ⟨m, hm, rfl⟩ := List.mem_map.1 ht
    refine ⟨?_, ?_⟩
    · show (m.map fun f => [f]).flatten = m
      clear hm ht
      induction m with
      | nil => rfl
      | cons a m ih => rw [List.map_cons, List.flatten_cons, ih]; rfl
    · intro f hf
      obtain ⟨a, ha, rfl⟩ := List.mem_map.1 hf
      exact ⟨rfl, sub_moment hI hS (mem_products.1 hm).1 (List.singleton_sublist.2 ha)⟩

/-- **C63 (quadratic conditions).** The same for `quadratic_factorization_conditions`, which splits off the first factor. -/
theorem C63_quadratic (hI : I.Accepted) (hS : copiesOf I.scenario ≤ 254) (hN : NamesOk I names) {s : Session} (hr : Reachable I names order s) :
    ∃ L, quadratic I s = some L ∧ (L.map Prod.fst).Nodup ∧ (∀ m, m ∈ L.map Prod.fst ↔ m ∈ I.monomials ∧ 1 < m.length) ∧
      ∀ t ∈ L, t.2.1 ++ t.2.2 = t.1 ∧ t.2.1.length = 1 ∧ t.2.2 ≠ [] ∧ t.2.1 ∈ I.monomials ∧ t.2.2 ∈ I.monomials := by
  refine ⟨_, quadratic_eq hI hS hN hr, ?_, ?_, ?_⟩
  · simpa [Function.comp_def] using products_nodup hI hS
  · intro m
    simp [Function.comp_def, mem_products]
  · intro t ht
    obtain ⟨m, hm, rfl⟩ := List.mem_map.1 ht
    obtain ⟨h1, h2⟩ := mem_products.1 hm
    refine ⟨List.take_append_drop 1 m, by rw [List.length_take]; omega, ?_, sub_moment hI hS h1 (List.take_sublist 1 m), sub_moment hI hS h1 (List.drop_sublist 1 m)⟩
    intro e
    have e : m.drop 1 = [] := e
    have := congrArg List.length e
    rw [List.length_drop] at this
    simp at this
    omega

/-! ### Columns -/

theorem indexOf_mem {m : Mon} (h : m ∈ I.monomials) : ∃ i, indexOf I m = some i := by
  unfold indexOf
  rw [← Option.isSome_iff_exists, List.findIdx?_isSome, List.any_eq_true]
  exact ⟨m, h, decide_eq_true rfl⟩

theorem indexOf_some {m : Mon} {i : Nat} (h : indexOf I m = some i) : i < I.columns.length ∧ I.monomials.getD i one = m := by
  unfold indexOf at h
  rw [List.findIdx?_eq_some_iff_getElem] at h
  obtain ⟨hi, h1, -⟩ := h
  refine ⟨by rw [← monomials_length]; exact hi, ?_⟩
  rw [List.getD_eq_getElem _ _ hi]
  simpa using h1

/-- The entries of the sparse conditions. -/
theorem sparse_spec (hI : I.Accepted) (hS : copiesOf I.scenario ≤ 254) (hN : NamesOk I names) {s : Session} (hr : Reachable I names order s) :
    ∃ L, sparseConditions I s = some L ∧
      List.Forall₂ (fun m t => I.monomials.getD t.1 one = m ∧ t.1 < I.columns.length ∧ List.Forall₂ (fun f j => I.monomials.getD j one = [f] ∧ j < I.columns.length) m t.2) (products I) L := by
  unfold sparseConditions
  rw [conditions_eq hI hS hN hr, Option.bind_some]
  have hex : ∀ t ∈ (products I).map fun m => (m, m.map fun f => [f]), ∃ q, ((indexOf I t.1).bind fun i => (t.2.mapM (indexOf I)).map fun js => (i, js)) = some q := by
    intro t ht
    obtain ⟨m, hm, rfl⟩ := List.mem_map.1 ht
    obtain ⟨i, hi⟩ := indexOf_mem (mem_products.1 hm).1
    obtain ⟨js, hjs⟩ := mapM_exists (f := indexOf I) (l := m.map fun f => [f]) (by
      intro f hf
      obtain ⟨a, ha, rfl⟩ := List.mem_map.1 hf
      exact indexOf_mem (sub_moment hI hS (mem_products.1 hm).1 (List.singleton_sublist.2 ha)))
    exact ⟨(i, js), by simp only [hi, Option.bind_some, hjs, Option.map_some]⟩
  obtain ⟨L, hL⟩ := mapM_exists hex
  refine ⟨L, hL, ?_⟩
  have h2 := LpSolver.mapM_forall₂ hL
  rw [List.forall₂_map_left_iff] at h2
  refine h2.imp ?_
  intro m t h
  simp only [Option.bind_eq_some_iff, Option.map_eq_some_iff] at h
  obtain ⟨i, hi, js, hjs, rfl⟩ := h
  refine ⟨(indexOf_some hi).2, (indexOf_some hi).1, ?_⟩
  have h3 := LpSolver.mapM_forall₂ hjs
  rw [List.forall₂_map_left_iff] at h3
  exact h3.imp fun f j h => ⟨(indexOf_some h).2, (indexOf_some h).1⟩

theorem quadratic_spec (hI : I.Accepted) (hS : copiesOf I.scenario ≤ 254) (hN : NamesOk I names) {s : Session} (hr : Reachable I names order s) :
    ∃ L, sparseQuadratic I s = some L ∧
      List.Forall₂ (fun m (t : Nat × Nat × Nat) => (I.monomials.getD t.1 one = m ∧ t.1 < I.columns.length) ∧ (I.monomials.getD t.2.1 one = m.take 1 ∧ t.2.1 < I.columns.length) ∧
        I.monomials.getD t.2.2 one = m.drop 1 ∧ t.2.2 < I.columns.length) (products I) L := by
  unfold sparseQuadratic
  rw [quadratic_eq hI hS hN hr, Option.bind_some]
  have hex : ∀ t ∈ (products I).map fun m => (m, m.take 1, m.drop 1),
      ∃ q, ((indexOf I t.1).bind fun i => (indexOf I t.2.1).bind fun j => (indexOf I t.2.2).map fun k => (i, j, k)) = some q := by
    intro t ht
    obtain ⟨m, hm, rfl⟩ := List.mem_map.1 ht
    have h1 := (mem_products.1 hm).1
    obtain ⟨i, hi⟩ := indexOf_mem h1
    obtain ⟨j, hj⟩ := indexOf_mem (sub_moment hI hS h1 (List.take_sublist 1 m))
    obtain ⟨k, hk⟩ := indexOf_mem (sub_moment hI hS h1 (List.drop_sublist 1 m))
    exact ⟨(i, j, k), by simp only [hi, hj, hk, Option.bind_some, Option.map_some]⟩
  obtain ⟨L, hL⟩ := mapM_exists hex
  refine ⟨L, hL, ?_⟩
  have h2 := LpSolver.mapM_forall₂ hL
  rw [List.forall₂_map_left_iff] at h2
  refine h2.imp ?_
  intro m t h
  simp only [Option.bind_eq_some_iff, Option.map_eq_some_iff] at h
  obtain ⟨i, hi, j, hj, k, hk, rfl⟩ := h
  exact ⟨⟨(indexOf_some hi).2, (indexOf_some hi).1⟩, ⟨(indexOf_some hj).2, (indexOf_some hj).1⟩, (indexOf_some hk).2, (indexOf_some hk).1⟩

/-! ### The conditions hold -/

variable {F : Type} [Field F]

/-- A vector of values for the columns satisfies the conditions. -/
def Obeys (L : List (Nat × List Nat)) (x : Nat → F) : Prop := ∀ t ∈ L, x t.1 = (t.2.map x).prod

/-- A vector of values for the columns satisfies the quadratic conditions. -/
def ObeysQuadratic (L : List (Nat × Nat × Nat)) (x : Nat → F) : Prop := ∀ t ∈ L, x t.1 = x t.2.1 * x t.2.2

theorem forall₂_right {α β : Type} {R : α → β → Prop} {l : List α} {r : List β} (h : List.Forall₂ R l r) {b : β} (hb : b ∈ r) : ∃ a ∈ l, R a b := by
  induction h with
  | nil => simp at hb
  | cons h1 _ ih =>
    rcases List.mem_cons.1 hb with rfl | hb
    · exact ⟨_, by simp, h1⟩
    · obtain ⟨a, ha, h2⟩ := ih hb
      exact ⟨a, by simp [ha], h2⟩

theorem obeys_of (hI : I.Accepted) (hS : copiesOf I.scenario ≤ 254) (hN : NamesOk I names) {s : Session} (hr : Reachable I names order s) (val : Atom → F) (x : Nat → F)
    (hx : ∀ i, i < I.columns.length → x i = valF val (I.monomials.getD i one)) :
    ∃ L Q, sparseConditions I s = some L ∧ sparseQuadratic I s = some Q ∧ Obeys L x ∧ ObeysQuadratic Q x := by
  obtain ⟨L, h1, h2⟩ := sparse_spec hI hS hN hr
  obtain ⟨Q, h3, h4⟩ := quadratic_spec hI hS hN hr
  refine ⟨L, Q, h1, h3, fun t ht => ?_, fun t ht => ?_⟩
  · obtain ⟨m, -, e, hi, hf⟩ := forall₂_right h2 ht
    rw [hx _ hi, e]
    clear e hi ht h2 h1
    obtain ⟨i, js⟩ := t
    unfold valF
    dsimp only at hf ⊢
    induction hf with
    | nil => rfl
    | cons h5 _ ih =>
      rw [List.map_cons, List.map_cons, List.prod_cons, List.prod_cons, ih, hx _ h5.2, h5.1]
      simp [valF]
  · obtain ⟨m, -, ⟨e1, i1⟩, ⟨e2, i2⟩, e3, i3⟩ := forall₂_right h4 ht
    rw [hx _ i1, hx _ i2, hx _ i3, e1, e2, e3]
    unfold valF
    rw [← List.prod_append, ← List.map_append, List.take_append_drop]

variable [LinearOrder F]

/-- **C63 (the conditions hold classically).** The probabilities that a classical model of the network gives to the columns of the program satisfy every factorization condition and every quadratic one,
as given by column numbers. -/
theorem C63_hold_classical (hI : I.Accepted) (hS : copiesOf I.scenario ≤ 254) (hN : NamesOk I names) {s : Session} (hr : Reachable I names order s) {Λ : Type} [Fintype Λ] [IsStrictOrderedRing F]
    (M : ClassicalModel I.scenario I.observed Λ F) :
    ∃ L Q, sparseConditions I s = some L ∧ sparseQuadratic I s = some Q ∧ Obeys L (fun i => M.vec (I.columns.getD i [])) ∧ ObeysQuadratic Q (fun i => M.vec (I.columns.getD i [])) := by
  refine obeys_of hI hS hN hr M.event _ fun i hi => ?_
  refine (EndToEnd.column_value hI M hi (columns_capacity hI hS _ ?_)).symm
  rw [List.getD_eq_getElem _ _ hi]
  exact List.getElem_mem _

/-- **C63 (the conditions hold in every theory).** The same for any theory of the network (see `InflatedTheory`). -/
theorem C63_hold_theory (hI : I.Accepted) (hS : copiesOf I.scenario ≤ 254) (hN : NamesOk I names) {s : Session} (hr : Reachable I names order s) (T : Verif.Theory.InflatedTheory I F) :
    ∃ L Q, sparseConditions I s = some L ∧ sparseQuadratic I s = some Q ∧ Obeys L (fun i => T.event (flatnonzero (I.columns.getD i []))) ∧
      ObeysQuadratic Q (fun i => T.event (flatnonzero (I.columns.getD i []))) := by
  refine obeys_of hI hS hN hr T.event _ fun i hi => ?_
  have hmem : I.columns.getD i [] ∈ I.columns := by
    rw [List.getD_eq_getElem _ _ hi]
    exact List.getElem_mem _
  rw [← T.vec_of (Verif.Theory.columns_joint hI _ hmem)]
  exact (T.column_value hI (columns_capacity hI hS) hi).symm

/-- **C63 (the conditions hold for quantum networks).** The expectations of the projectors of the columns in the inflated network of any quantum network. -/
theorem C63_hold_quantum {A : Type} [Fintype A] [DecidableEq A] (hI : I.Accepted) (hS : copiesOf I.scenario ≤ 254) (hN : NamesOk I names) {s : Session} (hr : Reachable I names order s)
    (N : Verif.QuantumNet.QuantumNetwork I A) :
    ∃ L Q, sparseConditions I s = some L ∧ sparseQuadratic I s = some Q ∧
      Obeys L (fun i => (Verif.Theory.ofQuantum (Verif.QuantumNet.inflate N hI)).event (flatnonzero (I.columns.getD i []))) ∧
      ObeysQuadratic Q (fun i => (Verif.Theory.ofQuantum (Verif.QuantumNet.inflate N hI)).event (flatnonzero (I.columns.getD i []))) :=
  C63_hold_theory hI hS hN hr _

/-! ### By name -/

/-- **C63 (by name).** The versions by name have the same entries: no two products share a name. -/
theorem C63_by_name (hI : I.Accepted) (hS : copiesOf I.scenario ≤ 254) (hN : NamesOk I names) {s : Session} (hr : Reachable I names order s) :
    ∃ L Q, conditions I s = some L ∧ quadratic I s = some Q ∧ conditionsByName I names s = some (L.map fun t => (momentText I names t.1, t.2.map (momentText I names))) ∧
      quadraticByName I names s = some (Q.map fun t => (momentText I names t.1, momentText I names t.2.1, momentText I names t.2.2)) := by
  have hnd : ((products I).map (momentText I names)).Nodup := by
    refine List.Nodup.map_on ?_ (products_nodup hI hS)
    intro m hm m' hm' e
    exact C60_names_differ hI hN hr (C60_monomials_in_table hI hN hr (mem_products.1 hm).1) (C60_monomials_in_table hI hN hr (mem_products.1 hm').1) e
  refine ⟨_, _, conditions_eq hI hS hN hr, quadratic_eq hI hS hN hr, ?_, ?_⟩
  · unfold conditionsByName
    rw [conditions_eq hI hS hN hr, Option.map_some]
    have := foldl_set_eq (fun t : Mon × List Mon => momentText I names t.1) (fun t => t.2.map (momentText I names)) ((products I).map fun m => (m, m.map fun f => [f])) [] (by
      simpa [Dict.keys, Function.comp_def] using hnd)
    rw [List.nil_append] at this
    exact congrArg some this
  · unfold quadraticByName
    rw [quadratic_eq hI hS hN hr, Option.map_some]
    have := foldl_set_eq (fun t : Mon × Mon × Mon => momentText I names t.1) (fun t => (momentText I names t.2.1, momentText I names t.2.2)) ((products I).map fun m => (m, m.take 1, m.drop 1)) [] (by
      simpa [Dict.keys, Function.comp_def] using hnd)
    rw [List.nil_append] at this
    exact congrArg some this

end Verif.Factorised
