import Verif.Theory.CertProps
import Verif.SdpEnd.Hermitian
import Verif.SdpEnd.ClassicalProps
/-!
Quantum models of the inflated network (projectors of a `*`-algebra and a state) are physical theories in the sense of C58: the linear program of a nonfanout inflation is sound for
quantum networks.
-/
namespace Verif.Theory
open Verif.Common Verif.Scenario Verif.Components Verif.Orbits Verif.CollinsGisin Verif.Normalization Verif.SdpEnd
open Verif.EndToEnd (Input)
open Verif.Symmetry (Relabelling inducedRow padRow img sdpSymmetries)

variable {I : Input}

/-- Operators that do not commute are incompatible. -/
theorem incompatible_of_notcomm {a b : Nat} (h : notcomm I a b = true) {x y : Op} (hx : I.scenario.sdpLexorder[a]? = some x) (hy : I.scenario.sdpLexorder[b]? = some y) :
    Incompatible I.D x y := by
  unfold notcomm padMat Scenario.notcomm at h
  simp only [Bool.and_eq_true, decide_eq_true_eq] at h
  obtain ⟨⟨ha, hb⟩, h⟩ := h
  obtain ⟨i, rfl⟩ := Nat.exists_eq_succ_of_ne_zero (by omega : a ≠ 0)
  obtain ⟨j, rfl⟩ := Nat.exists_eq_succ_of_ne_zero (by omega : b ≠ 0)
  have hx' : I.scenario.lexorder[i]? = some x := by simpa [Scenario.sdpLexorder] using hx
  have hy' : I.scenario.lexorder[j]? = some y := by simpa [Scenario.sdpLexorder] using hy
  split at h
  · simp only [commutationMatrix, Nat.succ_eq_add_one, Nat.add_sub_cancel, Bool.false_eq_true, if_false, hx', hy', Bool.or_eq_true, Bool.and_eq_true, Bool.not_eq_true'] at h
    rcases h with ⟨_, h⟩ | ⟨_, h⟩
    · exact (incompatible_iff _ _ _).2 h
    · exact incompatible_symm ((incompatible_iff _ _ _).2 h)
  · simp at h

/-- The rank of an operator in the operator list of the SDP. -/
def sdpRank (I : Input) (x : Op) : Nat := I.scenario.lexorder.idxOf x + 1

theorem sdpRank_lt {x : Op} (h : Valid I.scenario x) : sdpRank I x < nOps I := by
  have := List.idxOf_lt_length_iff.2 ((mem_lexorder _).2 h)
  unfold sdpRank nOps
  omega

theorem sdpRank_get {x : Op} (h : Valid I.scenario x) : I.scenario.sdpLexorder[sdpRank I x]? = some x := by
  have hi := List.idxOf_lt_length_iff.2 ((mem_lexorder _).2 h)
  unfold sdpRank Scenario.sdpLexorder
  rw [List.getElem?_cons_succ, List.getElem?_eq_getElem hi, List.getElem_idxOf]

theorem Joint.inRange {e : List Op} (h : Joint I e) : InRange I (e.map (sdpRank I)) := by
  intro r hr
  obtain ⟨x, hx, rfl⟩ := List.mem_map.1 hr
  exact sdpRank_lt (h.valid x hx)

theorem Joint.commuting {e : List Op} (h : Joint I e) : ∀ a ∈ e.map (sdpRank I), ∀ b ∈ e.map (sdpRank I), notcomm I a b = false := by
  intro a ha b hb
  obtain ⟨x, hx, rfl⟩ := List.mem_map.1 ha
  obtain ⟨y, hy, rfl⟩ := List.mem_map.1 hb
  by_cases hxy : x = y
  · subst hxy
    exact (operatorList I).nc_diag _
  · by_contra hc
    have hinc := incompatible_of_notcomm (Bool.not_eq_false _ ▸ hc) (sdpRank_get (h.valid x hx)) (sdpRank_get (h.valid y hy))
    haveI : Std.Symm fun x y : Op => ¬ SameMeasurement x y ∧ ¬ Incompatible I.D x y := ⟨fun x y hxy => ⟨fun hc => hxy.1 hc.symm, fun hc => hxy.2 (incompatible_symm hc)⟩⟩
    exact (h.compat.forall hx hy hxy).2 hinc

variable {R : Type} [Ring R] [StarRing R] [Algebra ℝ R] (M : InflatedModel I R)

/-- The Born rule: the probability of a joint event is the value of the product of its operators. -/
noncomputable def born (e : List Op) : ℝ := (M.φ (op M.ρ (e.map (sdpRank I)))).re

theorem born_real {e : List Op} (h : Joint I e) : M.φ (op M.ρ (e.map (sdpRank I))) = ((born M e : ℝ) : ℂ) ∧ 0 ≤ born M e := by
  have := selfAdjoint_value M (a := e.map (sdpRank I)) fun _ => selfAdjoint_of_comm h.commuting
  unfold InflatedModel.val at this
  rw [if_pos h.inRange] at this
  refine ⟨Complex.ext ?_ ?_, this.1⟩
  · rw [Complex.ofReal_re]; rfl
  · rw [Complex.ofReal_im]; exact this.2

theorem group_ranks {x : Op} (h : Valid I.scenario x) :
    (List.range (I.scenario.outcomes (x.party - 1))).map (fun o => sdpRank I { x with outcome := o }) ∈ scenarioGroups I.scenario := by
  obtain ⟨h1, _⟩ := key_mem I.scenario ((mem_lexorder I.scenario).2 h)
  refine List.mem_map.2 ⟨I.scenario.orthoGroup x.key, List.mem_map.2 ⟨x.key, h1, rfl⟩, ?_⟩
  unfold Scenario.orthoGroup
  rw [List.map_map]
  rfl

theorem img_sdpRank {g : Nat → Nat → Nat} {x : Op} (h : Valid I.scenario x) : img (padRow (inducedRow I.scenario g)) (sdpRank I x) = sdpRank I (Verif.Symmetry.act g x) := by
  have := row_act I.scenario (g := g) ((mem_lexorder _).2 h)
  have hi : I.scenario.lexorder.idxOf x < (inducedRow I.scenario g).length := by
    rw [Verif.Symmetry.inducedRow_length]
    exact List.idxOf_lt_length_iff.2 ((mem_lexorder _).2 h)
  rw [List.getD_eq_getElem _ _ hi] at this
  unfold sdpRank img padRow
  rw [List.getD_cons_succ, List.getD_eq_getElem _ _ (by simpa using hi), List.getElem_map, this]

/-- **A quantum model of the inflated network is a physical theory.** -/
noncomputable def ofQuantum : InflatedTheory I ℝ where
  prob := born M
  perm := by
    intro e e' h hp
    unfold born
    rw [SdpEnd.op_perm M h.inRange h.commuting (hp.map _)]
  unit := by
    show (M.φ (op M.ρ [])).re = 1
    unfold op
    simp [M.unit]
  nonneg := fun e h => (born_real M h).2
  marginal := by
    intro x e h
    have hx := h.valid x (List.mem_cons_self ..)
    have hc := M.complete _ (group_ranks hx)
    rw [List.map_map] at hc
    have h1 : ∀ l : List Nat, (l.map fun o => born M ({ x with outcome := o } :: e)).sum =
        (M.φ ((l.map (M.ρ ∘ fun o => sdpRank I { x with outcome := o })).sum * op M.ρ (e.map (sdpRank I)))).re := by
      intro l
      induction l with
      | nil => simp
      | cons o l ih =>
        rw [List.map_cons, List.sum_cons, ih, List.map_cons, List.sum_cons, add_mul, map_add, Complex.add_re]
        congr 1
    rw [h1, hc, one_mul]
    rfl
  symmetric := by
    intro g hg e h
    have hr : padRow (inducedRow I.scenario g) ∈ SdpEnd.symmetries I := List.mem_map.2 ⟨_, (Verif.Symmetry.mem_symmetries I.scenario).2 ⟨g, hg, rfl⟩, rfl⟩
    have := M.symmetric _ hr _ h.inRange
    unfold born
    rw [← this, List.map_map, List.map_map]
    congr 3
    apply List.map_congr_left
    intro x hx
    exact (img_sdpRank (h.valid x hx)).symm
  independent := by
    intro e f h hs
    have h1 : Joint I e := h.sublist (List.sublist_append_left ..)
    have h2 : Joint I f := h.sublist (List.sublist_append_right ..)
    have := M.independent _ _ h1.inRange h2.inRange (by
      intro a ha b hb x y hx hy
      obtain ⟨u, hu, rfl⟩ := List.mem_map.1 ha
      obtain ⟨v, hv, rfl⟩ := List.mem_map.1 hb
      rw [sdpRank_get (h1.valid u hu)] at hx
      rw [sdpRank_get (h2.valid v hv)] at hy
      rw [← Option.some.inj hx, ← Option.some.inj hy]
      exact hs u hu v hv)
    rw [← List.map_append, (born_real M h).1, (born_real M h1).1, (born_real M h2).1, ← Complex.ofReal_mul] at this
    exact Complex.ofReal_injective this

/-- A distribution which the Born rule gives to the original network (the first copies of all sources) gives the knowable moments of the SDP their values. -/
theorem realises_of_generates (hI : I.Accepted) {P : List Nat → Rat} (hP : (ofQuantum M).Generates fun t => ((P t : Rat) : ℝ)) : M.Realises P := by
  intro a hr hne h0 hsort hk
  rcases word_cases hr with h | ⟨e, rfl⟩
  · exact absurd h h0
  have hee : e ≠ [] := by rintro rfl; simp at hne
  have hgood : EndToEnd.GoodRanks I.scenario (e.map (·.1)) := by
    refine ⟨?_, ?_, by simpa using hee⟩
    · rw [List.pairwise_map] at hsort ⊢
      exact hsort.imp fun h => by omega
    · intro x hx
      obtain ⟨r, _, rfl⟩ := List.mem_map.1 hx
      exact r.2
  have hemp : (e.map fun r => r.1 + 1).isEmpty = false := by simpa using hee
  have hemp' : (e.map fun r => r.1).isEmpty = false := by simpa using hee
  have hcomm : ∀ x ∈ e.map fun r => r.1 + 1, ∀ y ∈ e.map fun r => r.1 + 1, notcomm I x y = false := by
    unfold knowable at hk
    rw [hemp, isZero_succ] at hk
    simp only [Bool.false_or, Bool.and_eq_true] at hk
    have h2 := hk.1.2
    unfold SdpRepr.allCommuting at h2
    intro x hx y hy
    rw [Bool.or_eq_true] at h2
    rcases h2 with h2 | h2
    · exact (allCommute_iff I).1 h2 x y
    · by_contra hc
      rw [Bool.not_eq_true', List.any_eq_false] at h2
      exact h2 x hx (List.any_eq_true.2 ⟨y, hy, by simpa using hc⟩)
  have hkn : I.knowable (e.map (·.1)) = true := by
    unfold knowable doConditional at hk
    rw [hemp, isZero_succ, operators_succ] at hk
    unfold Input.knowable Input.doConditional
    rw [hemp']
    simp only [Bool.false_or, Bool.and_eq_true] at hk ⊢
    exact ⟨hk.1.1, hk.2⟩
  obtain ⟨v, hv, he⟩ := (ofQuantum M).atomMarginal_sound hI hP hgood hkn
  refine ⟨v, ?_, ?_⟩
  · rw [← hv]
    unfold atomMarginal rectified Input.atomMarginal Input.rectified
    rw [hemp, hemp', isZero_succ, operators_succ]
    rfl
  · have hops : (ops I (e.map (·.1))).map (sdpRank I) = e.map fun r => r.1 + 1 := by
      unfold ops
      clear hk hv he hkn hcomm hemp hemp' hgood hee hr hne h0 hsort
      induction e with
      | nil => rfl
      | cons r e ih =>
        rw [List.map_cons, List.filterMap_cons_some (List.getElem?_eq_getElem r.2), List.map_cons, ih, List.map_cons]
        congr 1
        unfold sdpRank
        rw [List.Nodup.idxOf_getElem (lexorder_nodup _)]
    have hval := (selfAdjoint_value M fun _ => selfAdjoint_of_comm hcomm).2
    have hre : (v : ℝ) = (M.val (e.map fun r => r.1 + 1)).re := by
      rw [he]
      show (M.φ (op M.ρ ((ops I (e.map (·.1))).map (sdpRank I)))).re = _
      rw [hops]
      unfold InflatedModel.val
      rw [if_pos hr]
    refine Complex.ext ?_ ?_
    · rw [← hre]; simp
    · rw [hval]; simp

end Verif.Theory
