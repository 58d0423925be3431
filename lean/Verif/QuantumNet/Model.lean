import Verif.QuantumNet.Inflate
/-!
The inflation of a quantum network is a model of the inflated network in the sense of C56.
-/
set_option linter.unusedSectionVars false

namespace Verif.QuantumNet
open Verif.Common Verif.Scenario Verif.Components Verif.Normalization Verif.SdpEnd Verif.Theory
open Verif.EndToEnd (Input)
open Verif.Symmetry (Relabelling inducedRow padRow img sdpSymmetries)

variable {I : Input} {A : Type} [Fintype A] [DecidableEq A] (N : QuantumNetwork I A)

/-- A permutation of the copies of a source. -/
noncomputable def copyPerm {g : Nat → Nat → Nat} (hg : Relabelling I.scenario g) (s : Fin I.scenario.nSources) : Fin (max (I.scenario.level s) 1) ≃ Fin (max (I.scenario.level s) 1) :=
  Equiv.ofBijective (fun c => ⟨g s (c.1 + 1) - 1, by have := ((hg s s.2).2.1 (c.1 + 1) (by omega) (by have := c.2; omega)); omega⟩) (by
    apply Finite.injective_iff_bijective.1
    intro c d h
    have h1 := (hg s s.2).2.1 (c.1 + 1) (by omega) (by have := c.2; omega)
    have h2 := (hg s s.2).2.1 (d.1 + 1) (by omega) (by have := d.2; omega)
    have h3 := (hg s s.2).2.2 (c.1 + 1) (d.1 + 1) (by omega) (by have := c.2; omega) (by omega) (by have := d.2; omega)
    have h4 : g s (c.1 + 1) - 1 = g s (d.1 + 1) - 1 := congrArg Fin.val h
    have := h3 (by omega)
    exact Fin.ext (by omega))

theorem copyPerm_val {g : Nat → Nat → Nat} (hg : Relabelling I.scenario g) (s : Fin I.scenario.nSources) (c : Fin (max (I.scenario.level s) 1)) :
    (copyPerm hg s c).1 = g s (c.1 + 1) - 1 := rfl

/-- The permutation of the systems. -/
noncomputable def slotPerm {g : Nat → Nat → Nat} (hg : Relabelling I.scenario g) : Slot I ≃ Slot I where
  toFun t := ⟨⟨t.1.1, copyPerm hg t.1.1 t.1.2⟩, t.2⟩
  invFun t := ⟨⟨t.1.1, (copyPerm hg t.1.1).symm t.1.2⟩, t.2⟩
  left_inv t := by
    obtain ⟨⟨s, c⟩, q⟩ := t
    show (⟨⟨s, (copyPerm hg s).symm (copyPerm hg s c)⟩, q⟩ : Slot I) = ⟨⟨s, c⟩, q⟩
    rw [Equiv.symm_apply_apply]
  right_inv t := by
    obtain ⟨⟨s, c⟩, q⟩ := t
    show (⟨⟨s, copyPerm hg s ((copyPerm hg s).symm c)⟩, q⟩ : Slot I) = ⟨⟨s, c⟩, q⟩
    rw [Equiv.apply_symm_apply]

theorem state_perm {g : Nat → Nat → Nat} (hg : Relabelling I.scenario g) : (inflatedState N).submatrix (· ∘ slotPerm hg) (· ∘ slotPerm hg) = inflatedState N := by
  ext i j
  rw [Matrix.submatrix_apply]
  exact Equiv.prod_comp (Equiv.sigmaCongrRight (copyPerm hg)) fun b : Block I => N.state b.1 (part i b) (part j b)

theorem slots_act {g : Nat → Nat → Nat} (hg : Relabelling I.scenario g) {x : Op} (h : Valid I.scenario x) (p : Fin I.scenario.nParties) (hp : p.1 = x.party - 1) :
    slots p (copyOf I (Verif.Symmetry.act g x)) = slotPerm hg ∘ slots p (copyOf I x) := by
  funext s
  have hs : I.scenario.hyp s.1 (x.party - 1) = true := by rw [← hp]; exact s.2
  have h1 := level_copy h hs
  have h2 := level_copy (op := Verif.Symmetry.act g x) (Verif.Symmetry.act_valid I.scenario hg h) (s := s.1) hs
  have h3 : (Verif.Symmetry.act g x).copies[s.1.1]? = some (g s.1 ((copyOf I x s.1).1 + 1)) := by
    show (x.copies.mapIdx g)[s.1.1]? = _
    rw [List.getElem?_mapIdx, h1]
    rfl
  rw [h3] at h2
  have h4 := Option.some.inj h2
  have : copyOf I (Verif.Symmetry.act g x) s.1 = copyPerm hg s.1 (copyOf I x s.1) := by
    apply Fin.ext
    rw [copyPerm_val]
    omega
  show (⟨⟨s.1, copyOf I (Verif.Symmetry.act g x) s.1⟩, ⟨p, s.2⟩⟩ : Slot I) = ⟨⟨s.1, copyPerm hg s.1 (copyOf I x s.1)⟩, ⟨p, s.2⟩⟩
  rw [this]

theorem opAt_act (hI : I.Accepted) {g : Nat → Nat → Nat} (hg : Relabelling I.scenario g) {x : Op} (h : Valid I.scenario x) :
    opAt N (Verif.Symmetry.act g x) = (opAt N x).submatrix (· ∘ slotPerm hg) (· ∘ slotPerm hg) := by
  obtain ⟨p, y, z, hp, hd, _, _, e⟩ := opAt_valid N hI h
  obtain ⟨q, y', z', hq, hd', _, _, e'⟩ := opAt_valid N hI (Verif.Symmetry.act_valid I.scenario hg h)
  have hpq : p = q := Fin.ext (hp.trans hq.symm)
  subst hpq
  have hset : (Verif.Symmetry.act g x).setting = x.setting := rfl
  rw [hset, hd] at hd'
  obtain ⟨rfl, rfl⟩ := List.cons.inj (Option.some.inj hd')
  have e1 := e x.outcome
  have e2 := e' x.outcome
  rw [show ({ x with outcome := x.outcome } : Op) = x from rfl] at e1
  rw [show ({ Verif.Symmetry.act g x with outcome := x.outcome } : Op) = Verif.Symmetry.act g x from rfl] at e2
  rw [e1, e2, slots_act hg h p hp, lift_perm]

theorem submatrix_prod {J : Type} [Fintype J] [DecidableEq J] (π : J ≃ J) (l : List (Operator J A)) :
    (l.map fun X => X.submatrix (· ∘ π) (· ∘ π)).prod = (l.prod).submatrix (· ∘ π) (· ∘ π) := by
  induction l with
  | nil =>
    show (1 : Operator J A) = (1 : Operator J A).submatrix (· ∘ π) (· ∘ π)
    ext i j
    rw [Matrix.submatrix_apply]
    by_cases h : i = j
    · subst h; rw [Matrix.one_apply_eq, Matrix.one_apply_eq]
    · rw [Matrix.one_apply_ne h, Matrix.one_apply_ne]
      intro e
      apply h
      funext t
      have := congrFun e (π.symm t)
      simpa using this
  | cons X l ih =>
    rw [List.map_cons, List.prod_cons, ih, List.prod_cons]
    exact Matrix.submatrix_mul_equiv X l.prod (· ∘ π) (Equiv.arrowCongr π.symm (Equiv.refl A)) (· ∘ π)

theorem op_act (hI : I.Accepted) {g : Nat → Nat → Nat} (hg : Relabelling I.scenario g) {w : List Nat} (hw : InRange I w) :
    op (opRank N) (w.map (img (padRow (inducedRow I.scenario g)))) = (op (opRank N) w).submatrix (· ∘ slotPerm hg) (· ∘ slotPerm hg) := by
  unfold op
  rw [← submatrix_prod, List.map_map, List.map_map]
  congr 1
  apply List.map_congr_left
  intro r hr
  have hlt := hw r hr
  show opRank N (img (padRow (inducedRow I.scenario g)) r) = (opRank N r).submatrix _ _
  rcases Nat.eq_zero_or_pos r with rfl | hpos
  · have h0 : opRank N 0 = 0 := by unfold opRank; rw [if_pos rfl]
    rw [show img (padRow (inducedRow I.scenario g)) 0 = 0 from rfl, h0]
    rfl
  · obtain ⟨r, rfl⟩ := Nat.exists_eq_succ_of_ne_zero (by omega : r ≠ 0)
    unfold nOps at hlt
    have hl : r < I.scenario.lexorder.length := by omega
    have hv := Verif.Symmetry.lex_valid I.scenario hl
    have hr' : r.succ = sdpRank I I.scenario.lexorder[r] := by
      unfold sdpRank
      rw [List.Nodup.idxOf_getElem (lexorder_nodup _)]
    rw [hr', img_sdpRank hv, opRank_sdpRank N hv, opRank_sdpRank N (Verif.Symmetry.act_valid I.scenario hg hv), opAt_act N hI hg hv]

/-- A word of operators acts only on the copies of its operators. -/
theorem word_lift (hI : I.Accepted) (U : Block I → Prop) {w : List Nat} (hw : InRange I w)
    (hU : ∀ r ∈ w, ∀ x, I.scenario.sdpLexorder[r]? = some x → Valid I.scenario x → ∀ s : Fin I.scenario.nSources, I.scenario.hyp s (x.party - 1) = true → U ⟨s, copyOf I x s⟩) :
    ∃ X : Operator { t : Slot I // U t.1 } A, op (opRank N) w = lift Subtype.val X := by
  classical
  induction w with
  | nil => exact ⟨1, lift_one.symm⟩
  | cons r w ih =>
    obtain ⟨X, hX⟩ := ih (fun x hx => hw x (List.mem_cons_of_mem _ hx)) fun x hx => hU x (List.mem_cons_of_mem _ hx)
    have hr : ∃ Y : Operator { t : Slot I // U t.1 } A, opRank N r = lift Subtype.val Y := by
      have hlt := hw r (List.mem_cons_self ..)
      rcases Nat.eq_zero_or_pos r with rfl | hpos
      · exact ⟨0, by rw [lift_zero]; unfold opRank; rw [if_pos rfl]⟩
      · obtain ⟨r, rfl⟩ := Nat.exists_eq_succ_of_ne_zero (by omega : r ≠ 0)
        unfold nOps at hlt
        have hl : r < I.scenario.lexorder.length := by omega
        have hv := Verif.Symmetry.lex_valid I.scenario hl
        have hx : I.scenario.sdpLexorder[r.succ]? = some I.scenario.lexorder[r] := by
          unfold Scenario.sdpLexorder
          rw [List.getElem?_cons_succ, List.getElem?_eq_getElem hl]
        have hu := hU _ (List.mem_cons_self ..) _ hx hv
        obtain ⟨p, y, z, hp, _, _, _, e⟩ := opAt_valid N hI hv
        have e1 := e I.scenario.lexorder[r].outcome
        rw [show ({ I.scenario.lexorder[r] with outcome := I.scenario.lexorder[r].outcome } : Op) = I.scenario.lexorder[r] from rfl] at e1
        let f : Received I p → { t : Slot I // U t.1 } := fun s => ⟨slots p (copyOf I I.scenario.lexorder[r]) s, hu s.1 (by rw [← hp]; exact s.2)⟩
        refine ⟨lift f (N.effect p y z I.scenario.lexorder[r].outcome), ?_⟩
        rw [← lift_comp Subtype.val_injective]
        exact (opRank_succ N r hl).trans e1
    obtain ⟨Y, hY⟩ := hr
    refine ⟨Y * X, ?_⟩
    rw [← mul_same Subtype.val_injective, ← hX, ← hY]
    rfl

theorem state_trace : (inflatedState N).trace = 1 := by
  unfold inflatedState
  rw [tensor_trace, Finset.prod_congr rfl fun (b : Block I) _ => N.state_trace b.1, Finset.prod_const_one]

theorem state_positive : ∃ β : Operator (Slot I) A, inflatedState N = β.conjTranspose * β := by
  choose β hβ using N.state_positive
  refine ⟨tensor fun b : Block I => β b.1, ?_⟩
  rw [tensor_star, tensor_mul]
  unfold inflatedState
  congr 1
  funext b
  exact hβ b.1

/-- **The inflation of a quantum network is a model of the inflated network.** -/
noncomputable def inflate (hI : I.Accepted) : InflatedModel I (Operator (Slot I) A) where
  ρ := opRank N
  φ := functional (inflatedState N)
  operators := operators_model N hI
  complete := operators_complete N hI
  unit := by
    show (inflatedState N * 1).trace = 1
    rw [mul_one]
    exact state_trace N
  hermitian := by
    intro X
    obtain ⟨β, h⟩ := state_positive N
    refine value_star ?_ X
    rw [h, Matrix.conjTranspose_mul, Matrix.conjTranspose_conjTranspose]
  positive := by
    intro X
    obtain ⟨β, h⟩ := state_positive N
    exact value_positive h X
  symmetric := by
    intro r hr w hw
    obtain ⟨g, hg, rfl⟩ := Verif.Symmetry.sdp_row I.scenario hr
    rw [op_act N hI hg hw]
    exact value_perm (slotPerm hg) (state_perm N hg) _
  independent := by
    classical
    intro u v hu hv h
    let U : Block I → Prop := fun b => ∃ r ∈ u, ∃ x, I.scenario.sdpLexorder[r]? = some x ∧ Valid I.scenario x ∧ I.scenario.hyp b.1 (x.party - 1) = true ∧ copyOf I x b.1 = b.2
    obtain ⟨X, hX⟩ := word_lift N hI U hu fun r hr x hx hvx s hs => ⟨r, hr, x, hx, hvx, hs, rfl⟩
    obtain ⟨Y, hY⟩ := word_lift N hI (fun b => ¬ U b) hv fun r hr y hy hvy s hs => by
      rintro ⟨r', hr', x, hx, hvx, hxs, hc⟩
      refine h r' hr' r hr x y hx hy ⟨s.1, _, ?_, level_copy hvx hxs, ?_⟩
      · omega
      · have hc' : copyOf I x s = copyOf I y s := hc
        rw [level_copy hvy hs, ← hc']
    have : op (opRank N) (u ++ v) = op (opRank N) u * op (opRank N) v := by
      unfold op
      rw [List.map_append, List.prod_append]
    rw [this, hX, hY]
    exact value_independent U (fun b : Block I => N.state_trace b.1) X Y

end Verif.QuantumNet
