import Verif.Theory.Events
/-!
The values that a theory gives to the columns of the linear program.
-/
namespace Verif.Theory
open Verif.Common Verif.Scenario Verif.Components Verif.Orbits Verif.CollinsGisin Verif.Moment Verif.State
open Verif.EndToEnd (Input StandsFor CacheSound GoodRanks factorize_sublist atomsOf_sound nonempty_standsFor monomialOf atomsOf valF valF_perm columnMoments flatnonzero_lt nil_sound
  monomialOf_sound columns_length monomials_length measKeys_ne lpEnv_some dictValF columnsF dictValF_sparse)
open Verif.EndToEnd.ClassicalModel (Capacity isEvent_nodup)
open Verif.Symmetry (Relabelling lexorderSymmetries inducedRow)

variable {I : Input}

theorem Joint.of_relabel {e : List Op} {g : Nat → Nat → Nat} (hg : Relabelling I.scenario g) (hv : ∀ x ∈ e, Valid I.scenario x) (h : Joint I (e.map (Verif.Symmetry.act g))) :
    Joint I e where
  valid := hv
  compat := by
    have := h.compat
    rw [List.pairwise_map] at this
    refine List.Pairwise.imp_of_mem ?_ this
    intro x y hx hy hxy
    refine ⟨?_, ?_⟩
    · rintro ⟨h1, h2, h3⟩
      exact hxy.1 ⟨h1, by show x.copies.mapIdx g = y.copies.mapIdx g; rw [h2], h3⟩
    · intro hc
      apply hxy.2
      rw [incompatible_iff] at hc ⊢
      rwa [Verif.Symmetry.operatorsCommute_act I.scenario I.D.tbl hg (hv x hx) (hv y hy)]

theorem flatnonzero_boolKey {n : Nat} {e : List Nat} (hnd : e.Nodup) (hlt : ∀ r ∈ e, r < n) : (flatnonzero (boolKey n e)).Perm e := by
  rw [List.perm_ext_iff_of_nodup ((flatnonzero_sorted _).imp Nat.ne_of_lt) hnd]
  intro a
  rw [mem_flatnonzero_boolKey]
  exact ⟨fun h => h.2, fun h => ⟨hlt a h, h⟩⟩

variable {F : Type} [Field F] [LinearOrder F]

namespace InflatedTheory
variable (T : InflatedTheory I F)

theorem event_perm {e e' : List Nat} (hj : Joint I (ops I e)) (h : e.Perm e') : T.event e = T.event e' := T.perm _ _ hj (ops_perm h)

open Classical in
/-- The probability of a set given by its indicator vector (0 for sets that are not joint events). -/
noncomputable def vec (v : List Bool) : F := if Joint I (ops I (flatnonzero v)) then T.event (flatnonzero v) else 0

theorem vec_of {v : List Bool} (h : Joint I (ops I (flatnonzero v))) : T.vec v = T.event (flatnonzero v) := if_pos h

theorem vec_boolKey {e : List Nat} (hnd : e.Nodup) (hlt : ∀ r ∈ e, r < I.scenario.lexorder.length) (hj : Joint I (ops I e)) : T.vec (boolKey I.scenario.lexorder.length e) = T.event e := by
  have hp := flatnonzero_boolKey hnd hlt
  rw [T.vec_of (hj.perm (ops_perm hp.symm))]
  exact T.event_perm (hj.perm (ops_perm hp.symm)) hp

/-- Events related by a relabelling. -/
theorem event_orbit {v w : List Bool} (hv : v.length = I.scenario.lexorder.length) (h : SameOrbit (lexorderSymmetries I.scenario) v w) :
    (Joint I (ops I (flatnonzero v)) ↔ Joint I (ops I (flatnonzero w))) ∧ (Joint I (ops I (flatnonzero w)) → T.event (flatnonzero v) = T.event (flatnonzero w)) := by
  obtain ⟨r, hr, rfl⟩ := h
  have hr' := hr
  obtain ⟨g, hg, rfl⟩ := (Verif.Symmetry.mem_symmetries I.scenario).1 hr
  obtain ⟨h1, h2⟩ := flatnonzero_image hg hr' hv
  have h3 : (ops I (flatnonzero v)).Perm ((ops I (flatnonzero (image v (inducedRow I.scenario g)))).map (Verif.Symmetry.act g)) := by
    rw [← ops_inducedRow hg h2]
    exact ops_perm h1
  refine ⟨⟨fun h => Joint.of_relabel hg (ops_valid _) (h.perm h3), fun h => (h.relabel hg).perm h3.symm⟩, fun h => ?_⟩
  exact (T.perm _ _ ((h.relabel hg).perm h3.symm) h3).trans (T.symmetric g hg _ h)

theorem vec_invariant : Invariant I.scenario.lexorder.length (lexorderSymmetries I.scenario) T.vec := by
  intro v w hv h
  obtain ⟨h1, h2⟩ := T.event_orbit hv h
  by_cases hw : Joint I (ops I (flatnonzero w))
  · rw [T.vec_of hw, T.vec_of (h1.2 hw), h2 hw]
  · unfold vec
    rw [if_neg hw, if_neg fun hc => hw (h1.1 hc)]

theorem marginalises (hout : ∀ p, p < I.scenario.nParties → 1 ≤ I.scenario.outcomes p) (hc : Nat → Bool) (force : Bool) :
    Marginalises I.scenario.lexorder.length (blocksOf (groupsOf I.scenario hc force)) (templateAdj I.scenario I.D I.anyNonclassical) T.vec := by
  intro b e hb he
  have hok := blocksOk_groupsOf I.scenario hout hc force
  have hne := hok.nonempty b hb
  obtain ⟨r0, hr0⟩ := List.exists_mem_of_ne_nil b hne
  have hev := isEvent_nodup hok (he r0 hr0)
  have he0 : e.Nodup := hev.1.of_cons
  have hlt : ∀ r ∈ e, r < I.scenario.lexorder.length := fun r hr => hev.2 r (List.mem_cons_of_mem _ hr)
  have hj0 := joint_of_isEvent hout (he r0 hr0)
  have hj : Joint I (ops I e) := hj0.sublist ((List.sublist_cons_self r0 e).filterMap _)
  rw [T.vec_boolKey he0 hlt hj]
  have h1 : (b.map fun r => T.vec (boolKey I.scenario.lexorder.length (r :: e))) = b.map fun r => T.event (r :: e) := by
    apply List.map_congr_left
    intro r hr
    have := isEvent_nodup hok (he r hr)
    exact T.vec_boolKey this.1 this.2 (joint_of_isEvent hout (he r hr))
  rw [h1]
  rw [groupsOf_eq, blocksOf, List.map_map] at hb
  obtain ⟨k, hk, rfl⟩ := List.mem_map.1 hb
  have hx : ∀ op ∈ I.scenario.orthoGroup k, T.event (I.scenario.lexorder.idxOf op :: e) = T.prob (op :: ops I e) := by
    intro op hop
    have hi := List.idxOf_lt_length_iff.2 (mem_lex_of_group I.scenario hk hop)
    show T.prob ((_ :: e).filterMap _) = _
    rw [List.filterMap_cons_some (b := op) (by rw [List.getElem?_eq_getElem hi, List.getElem_idxOf])]
    rfl
  show ((blockOf I.scenario k).map fun r => T.event (r :: e)).sum = T.event e
  have hr0' : r0 ∈ blockOf I.scenario k := hr0
  unfold blockOf at hr0' ⊢
  rw [List.map_map]
  obtain ⟨x, hxm, rfl⟩ := List.mem_map.1 hr0'
  have hj0' : Joint I (x :: ops I e) := by
    have hi := List.idxOf_lt_length_iff.2 (mem_lex_of_group I.scenario hk hxm)
    have : ops I (I.scenario.lexorder.idxOf x :: e) = x :: ops I e := by
      unfold ops
      rw [List.filterMap_cons_some (b := x) (by rw [List.getElem?_eq_getElem hi, List.getElem_idxOf])]
    rw [← this]
    exact hj0
  have hm := T.marginal x (ops I e) hj0'
  have hkey := key_of_mem_orthoGroup _ hxm
  refine Eq.trans ?_ hm
  have e1 : (I.scenario.orthoGroup k).map ((fun r => T.event (r :: e)) ∘ fun op => I.scenario.lexorder.idxOf op) = (I.scenario.orthoGroup k).map fun op => T.prob (op :: ops I e) :=
    List.map_congr_left fun op hop => hx op hop
  rw [e1]
  unfold Scenario.orthoGroup
  rw [List.map_map]
  have hp : x.party = k.1 := congrArg (fun t => t.1) hkey
  have hcp : x.copies = k.2.1 := congrArg (fun t => t.2.1) hkey
  have hst : x.setting = k.2.2 := congrArg (fun t => t.2.2) hkey
  rw [hp]
  congr 1
  apply List.map_congr_left
  intro o _
  show T.prob (⟨k.1, k.2.1, k.2.2, o⟩ :: ops I e) = T.prob (⟨k.1, x.copies, x.setting, o⟩ :: ops I e)
  rw [hcp, hst]

theorem event_standsFor {f m : List Nat} (hf : f.Pairwise (· < ·)) (hn : ∀ x ∈ f, x < I.scenario.lexorder.length) (hj : Joint I (ops I f))
    (h : StandsFor I.scenario.lexorder.length (lexorderSymmetries I.scenario) (boolKey I.scenario.lexorder.length f) m) : T.event m = T.event f := by
  obtain ⟨h1, h2⟩ := T.event_orbit (boolKey_length _ _) h.orbit
  have p1 := flatnonzero_boolKey (hf.imp Nat.ne_of_lt) hn
  have p2 := flatnonzero_boolKey (h.sorted.imp Nat.ne_of_lt) h.lt
  have j1 := hj.perm (ops_perm p1.symm)
  rw [← T.event_perm j1 p1, ← T.event_perm (h1.1 j1) p2]
  exact (h2 (h1.1 (hj.perm (ops_perm p1.symm)))).symm

theorem event_flatten (fs : List (List Nat)) (hj : Joint I (ops I fs.flatten))
    (h : fs.Pairwise fun e f => ∀ a ∈ e, ∀ b ∈ f, ∀ x y, I.scenario.lexorder[a]? = some x → I.scenario.lexorder[b]? = some y → ¬ ShareCopy x y) :
    T.event fs.flatten = (fs.map T.event).prod := by
  induction fs with
  | nil => exact T.unit
  | cons f fs ih =>
    rw [List.pairwise_cons] at h
    rw [List.flatten_cons] at hj ⊢
    have e1 : ops I (f ++ fs.flatten) = ops I f ++ ops I fs.flatten := List.filterMap_append ..
    have e2 : T.event (f ++ fs.flatten) = T.event f * T.event fs.flatten := by
      show T.prob (ops I (f ++ fs.flatten)) = _
      rw [e1] at hj ⊢
      refine T.independent _ _ hj ?_
      intro x hx y hy
      obtain ⟨a, ha, hax⟩ := List.mem_filterMap.1 hx
      obtain ⟨b, hb, hby⟩ := List.mem_filterMap.1 hy
      obtain ⟨g, hg, hbg⟩ := List.mem_flatten.1 hb
      exact h.1 g hg a ha b hbg x y hax hby
    rw [e2, ih (by rw [e1] at hj; exact hj.sublist (List.sublist_append_right _ _)) h.2]
    rfl

theorem event_factorize (mon : List Nat) (hv : ∀ a ∈ mon, a < I.scenario.lexorder.length) (hj : Joint I (ops I mon)) (hcap : Capacity I.scenario mon) :
    T.event mon = ((factorize I.scenario mon).map T.event).prod := by
  by_cases hne : mon = []
  · subst hne
    have : factorize I.scenario [] = [[]] := by simp [factorize]
    rw [this]
    simp
  obtain ⟨h1, h2, _, _⟩ := C09_factorization I.scenario mon hne hv hcap
  rw [← T.event_flatten]
  · exact (T.event_perm (hj.perm (ops_perm h1.symm)) h1).symm
  · exact hj.perm (ops_perm h1.symm)
  · rw [List.pairwise_iff_getElem]
    intro i j hi hj hij a ha b hb x y hx hy
    exact C09_factors_independent I.scenario mon hv hcap i j _ _ (List.getElem?_eq_getElem hi) (List.getElem?_eq_getElem hj) (by omega) a b ha hb x y hx hy

theorem monomialOf_value {c : Cache} (hc : CacheSound I.scenario.lexorder.length (lexorderSymmetries I.scenario) c) {a : List Nat} (ha : a.Pairwise (· < ·))
    (hn : ∀ x ∈ a, x < I.scenario.lexorder.length) (hj : Joint I (ops I a)) (hcap : Capacity I.scenario a) : valF T.event (monomialOf I.scenario c a).2 = T.event a := by
  have hf : ∀ f ∈ factorize I.scenario a, f.Pairwise (· < ·) ∧ ∀ x ∈ f, x < I.scenario.lexorder.length := fun f hf =>
    ⟨ha.sublist (factorize_sublist hf), fun x hx => hn x ((factorize_sublist hf).subset hx)⟩
  obtain ⟨_, h2⟩ := atomsOf_sound (factorize I.scenario a) c hc hf
  have hf' : ∀ f ∈ (factorize I.scenario a).filter (fun f => !f.isEmpty), Joint I (ops I f) ∧ f.Pairwise (· < ·) ∧ ∀ x ∈ f, x < I.scenario.lexorder.length := fun f hh => by
    rw [List.mem_filter] at hh
    exact ⟨hj.sublist ((factorize_sublist hh.1).filterMap _), hf f hh.1⟩
  rw [T.event_factorize a hn hj hcap]
  show valF T.event (sortBy atomLe (atomsOf I.scenario c (factorize I.scenario a)).2) = _
  rw [valF_perm _ (sortBy_perm _ _)]
  have hdrop : ∀ fs : List (List Nat), (fs.map T.event).prod = ((fs.filter fun f => !f.isEmpty).map T.event).prod := by
    intro fs
    induction fs with
    | nil => rfl
    | cons f fs ih =>
      by_cases he : f.isEmpty = true
      · rw [List.filter_cons_of_neg (by simp [he]), List.map_cons, List.prod_cons, ih]
        have : f = [] := by simpa using he
        subst this
        have : T.event [] = 1 := T.unit
        rw [this, one_mul]
      · rw [List.filter_cons_of_pos (by simpa using he), List.map_cons, List.prod_cons, ih, List.map_cons, List.prod_cons]
  rw [hdrop]
  unfold valF
  congr 1
  generalize (factorize I.scenario a).filter (fun f => !f.isEmpty) = fs at h2 hf'
  generalize (atomsOf I.scenario c (factorize I.scenario a)).2 = ms at h2
  clear hf hdrop
  induction h2 with
  | nil => rfl
  | cons h _ ih =>
    have := hf' _ (List.mem_cons_self ..)
    rw [List.map_cons, List.map_cons, ih (fun g hg => hf' g (List.mem_cons_of_mem _ hg)), T.event_standsFor this.2.1 this.2.2 this.1 h]

theorem columnMoments_value : ∀ (vs : List (List Bool)) (c : Cache), CacheSound I.scenario.lexorder.length (lexorderSymmetries I.scenario) c →
    (∀ v ∈ vs, v.length = I.scenario.lexorder.length ∧ Joint I (ops I (flatnonzero v)) ∧ Capacity I.scenario (flatnonzero v)) →
    List.Forall₂ (fun v m => valF T.event m = T.vec v) vs (columnMoments I.scenario c vs) := by
  intro vs
  induction vs with
  | nil => intro c _ _; exact .nil
  | cons v vs ih =>
    intro c hc hv
    obtain ⟨hlen, hj, hcap⟩ := hv v (List.mem_cons_self ..)
    obtain ⟨h1, _, _⟩ := monomialOf_sound hc (flatnonzero_sorted v) (flatnonzero_lt hlen)
    have h3 := T.monomialOf_value hc (flatnonzero_sorted v) (flatnonzero_lt hlen) hj hcap
    unfold columnMoments
    exact .cons (h3.trans (T.vec_of hj).symm) (ih (monomialOf I.scenario c (flatnonzero v)).1 h1 fun w hw => hv w (List.mem_cons_of_mem _ hw))

end InflatedTheory

/-- The columns are joint events. -/
theorem columns_joint (hI : I.Accepted) : ∀ v ∈ I.columns, Joint I (ops I (flatnonzero v)) := by
  intro v hv
  have hok := blocksOk_groupsOf I.scenario hI.out_pos I.hasChildren I.allOutcomes
  obtain ⟨e, he, _, rfl⟩ := (mem_rawMonomials hok (templateAdj_symm I.scenario I.D I.anyNonclassical) v).1 (representatives_mem hv)
  obtain ⟨h1, h2⟩ := isEvent_nodup hok he
  exact (joint_of_isEvent hI.out_pos he).perm (ops_perm (flatnonzero_boolKey h1 h2).symm)

namespace InflatedTheory
variable (T : InflatedTheory I F)

theorem column_value (hI : I.Accepted) (hcap : ∀ v ∈ I.columns, Capacity I.scenario (flatnonzero v)) {i : Nat} (hi : i < I.columns.length) :
    valF T.event (I.monomials.getD i State.one) = T.vec (I.columns.getD i []) := by
  have h := T.columnMoments_value I.columns [] (nil_sound I.scenario.lexorder.length (lexorderSymmetries I.scenario))
    fun v hv => ⟨columns_length hI v hv, columns_joint hI v hv, hcap v hv⟩
  have hi' : i < I.monomials.length := by rw [monomials_length]; exact hi
  rw [List.getD_eq_getElem _ _ hi, List.getD_eq_getElem _ _ hi']
  exact (List.forall₂_iff_get.1 h).2 i hi hi'

/-- The generated rows hold for the probabilities of the columns. -/
theorem rows_hold [IsStrictOrderedRing F] (hI : I.Accepted) (hcap : ∀ v ∈ I.columns, Capacity I.scenario (flatnonzero v))
    {name : Atom → String} {E : Env Mon} (hE : I.lpEnv name = some E) :
    (∀ r ∈ E.minEq, dictValF r (columnsF E (valF T.event)) = 0) ∧ (∀ r ∈ E.minIneq, 0 ≤ dictValF r (columnsF E (valF T.event))) := by
  obtain ⟨eqs, ineqs, h1, h2, _, _, rfl⟩ := lpEnv_some hE
  obtain ⟨eqs', ineqs', h1', h2', h⟩ := C28_every_problem (K := F) I.scenario I.D hI.out_pos (measKeys_ne hI) I.anyNonclassical I.hasChildren I.allOutcomes I.symmetrize
  have e1 : eqs' = eqs := Option.some.inj (h1'.symm.trans h1)
  have e2 : ineqs' = ineqs := Option.some.inj (h2'.symm.trans h2)
  subst e1 e2
  have hn : Nonneg I.scenario.lexorder.length (blocksOf (groupsOf I.scenario I.hasChildren I.allOutcomes)) (templateAdj I.scenario I.D I.anyNonclassical) T.vec := by
    intro e he
    obtain ⟨k1, k2⟩ := isEvent_nodup (blocksOk_groupsOf I.scenario hI.out_pos I.hasChildren I.allOutcomes) he
    have hj := joint_of_isEvent hI.out_pos he
    rw [T.vec_boolKey k1 k2 hj]
    exact T.nonneg _ hj
  obtain ⟨g1, g2⟩ := (h (fun i => valF T.event (I.monomials.getD i State.one))).2
    ⟨T.vec, T.marginalises hI.out_pos _ _, hn, fun _ => T.vec_invariant, fun c hc => T.column_value hI hcap hc⟩
  constructor
  · intro r hr
    obtain ⟨row, hrow, rfl⟩ := List.mem_map.1 hr
    rw [dictValF_sparse]
    exact g1 row hrow
  · intro r hr
    obtain ⟨row, hrow, rfl⟩ := List.mem_map.1 hr
    rw [dictValF_sparse]
    exact g2 row hrow

end InflatedTheory
end Verif.Theory
