import Verif.QuantumNet.Model
/-!
The first copies of the sources of the inflated network form the original network: the Born rule of the original network gives the probabilities of the original events.
-/
set_option linter.unusedSectionVars false

namespace Verif.QuantumNet
open Verif.Common Verif.Scenario Verif.Components Verif.Normalization Verif.SdpEnd Verif.Theory
open Verif.EndToEnd (Input)

section
variable {A : Type} [Fintype A] [DecidableEq A] {K J : Type} [Fintype K] [DecidableEq K] [Fintype J] [DecidableEq J]

open Classical in
/-- An operator times one that acts on other systems. -/
theorem mul_step {f : K → J} (X : Operator K A) {S : J → Prop} (hd : ∀ k, ¬ S (f k)) {F : (J → A) → (J → A) → ℂ}
    (hF : ∀ i i' j, (∀ t, S t → i t = i' t) → F i j = F i' j) (W : Operator J A) (hW : ∀ i j, (∀ t, ¬ S t → i t = j t) → W i j = F i j)
    (hW' : ∀ i j, ¬ (∀ t, ¬ S t → i t = j t) → W i j = 0) (i j : J → A) :
    (lift f X * W) i j = if ∀ t, t ∉ Set.range f → ¬ S t → i t = j t then X (i ∘ f) (j ∘ f) * F i j else 0 := by
  rw [Matrix.mul_apply]
  let m : J → A := fun t => if t ∈ Set.range f then j t else i t
  rw [Finset.sum_eq_single m]
  · rw [lift_pos fun t ht => (if_neg ht).symm]
    have e1 : m ∘ f = j ∘ f := funext fun k => if_pos ⟨k, rfl⟩
    have e2 : F m j = F i j := hF _ _ _ fun t ht => if_neg (by rintro ⟨k, rfl⟩; exact hd k ht)
    have e3 : (∀ t, ¬ S t → m t = j t) ↔ ∀ t, t ∉ Set.range f → ¬ S t → i t = j t := by
      constructor
      · intro h t ht hs
        exact (if_neg ht).symm.trans (h t hs)
      · intro h t hs
        show (if t ∈ Set.range f then j t else i t) = j t
        split
        · rfl
        · rename_i ht
          exact h t ht hs
    by_cases h : ∀ t, t ∉ Set.range f → ¬ S t → i t = j t
    · rw [if_pos h, hW _ _ (e3.2 h), e1, e2]
    · rw [if_neg h, hW' _ _ fun h' => h (e3.1 h'), mul_zero]
  · intro b _ hb
    by_contra hne
    apply hb
    have h1 : lift f X i b ≠ 0 := left_ne_zero_of_mul hne
    have h2 : W b j ≠ 0 := right_ne_zero_of_mul hne
    have hi : ∀ t, t ∉ Set.range f → i t = b t := by
      by_contra hc
      exact h1 (lift_neg hc X)
    have hj : ∀ t, ¬ S t → b t = j t := by
      by_contra hc
      exact h2 (hW' _ _ hc)
    funext t
    show b t = if t ∈ Set.range f then j t else i t
    split
    · rename_i ht
      obtain ⟨k, rfl⟩ := ht
      exact hj _ (hd k)
    · rename_i ht
      exact (hi t ht).symm
  · intro h
    exact absurd (Finset.mem_univ _) h

theorem lift_listProd {f : K → J} (hf : Function.Injective f) (l : List (Operator K A)) : (l.map (lift f)).prod = lift f l.prod := by
  induction l with
  | nil => exact lift_one.symm
  | cons X l ih => rw [List.map_cons, List.prod_cons, ih, mul_same hf, List.prod_cons]

theorem lift_equiv (e : K ≃ J) (X : Operator K A) (i j : J → A) : lift e X i j = X (i ∘ e) (j ∘ e) := by
  rw [lift_pos]
  intro t ht
  exact absurd ⟨e.symm t, by simp⟩ ht

end

variable {I : Input} {A : Type} [Fintype A] [DecidableEq A] (N : QuantumNetwork I A)

/-- The systems of the original network which a party measures. -/
def origSlots (p : Fin I.scenario.nParties) : Received I p → Σ s, Receivers I s := fun s => ⟨s.1, p, s.2⟩

open Classical in
/-- The product of operators of different parties. -/
theorem parties_prod (E : ∀ p : Fin I.scenario.nParties, Operator (Received I p) A) (l : List (Fin I.scenario.nParties)) (hl : l.Nodup) (i j : (Σ s, Receivers I s) → A) :
    (l.map fun p => lift (origSlots p) (E p)).prod i j =
      if ∀ t : Σ s, Receivers I s, t.2.1 ∉ l → i t = j t then (l.map fun p => E p (i ∘ origSlots p) (j ∘ origSlots p)).prod else 0 := by
  induction l generalizing i j with
  | nil =>
    show (1 : Operator (Σ s, Receivers I s) A) i j = _
    by_cases h : i = j
    · subst h
      rw [Matrix.one_apply_eq, if_pos fun _ _ => rfl]
      rfl
    · rw [Matrix.one_apply_ne h, if_neg]
      intro hc
      exact h (funext fun t => hc t (by simp))
  | cons p l ih =>
    rw [List.nodup_cons] at hl
    rw [List.map_cons, List.prod_cons, List.map_cons, List.prod_cons]
    rw [mul_step (f := origSlots p) (E p) (S := fun t => t.2.1 ∈ l) (fun k => hl.1) (F := fun i j => (l.map fun p => E p (i ∘ origSlots p) (j ∘ origSlots p)).prod) ?_ _ (fun i j hc => (ih hl.2 i j).trans (if_pos hc))
      (fun i j hc => (ih hl.2 i j).trans (if_neg hc))]
    · have : (∀ t : Σ s, Receivers I s, t ∉ Set.range (origSlots p) → ¬ t.2.1 ∈ l → i t = j t) ↔ ∀ t : Σ s, Receivers I s, t.2.1 ∉ p :: l → i t = j t := by
        apply forall_congr'
        rintro ⟨s, q, hq⟩
        have hr : (⟨s, q, hq⟩ : Σ s, Receivers I s) ∈ Set.range (origSlots p) ↔ q = p := by
          constructor
          · rintro ⟨k, hk⟩
            exact (congrArg (fun t : Σ s, Receivers I s => t.2.1) hk).symm
          · rintro rfl
            exact ⟨⟨s, hq⟩, rfl⟩
        rw [hr, List.mem_cons, not_or]
        exact ⟨fun h h' => h h'.1 h'.2, fun h a b => h ⟨a, b⟩⟩
      by_cases hc : ∀ t : Σ s, Receivers I s, t.2.1 ∉ p :: l → i t = j t
      · rw [if_pos hc, if_pos (this.2 hc)]
      · rw [if_neg hc, if_neg fun h => hc (this.1 h)]
    · intro i i' j h
      congr 1
      apply List.map_congr_left
      intro q hq
      have : i ∘ origSlots q = i' ∘ origSlots q := funext fun k => h _ hq
      rw [this]

/-- The first copy of every source. -/
def firstSlot : (Σ s, Receivers I s) → Slot I := fun t => ⟨⟨t.1, ⟨0, by omega⟩⟩, t.2⟩

theorem firstSlot_injective : Function.Injective (firstSlot (I := I)) := by
  rintro ⟨s, p⟩ ⟨t, q⟩ h
  have hs : s = t := congrArg (fun x : Slot I => x.1.1) h
  subst hs
  have hp : p.1 = q.1 := congrArg (fun x : Slot I => x.2.1) h
  rw [Subtype.ext hp]

/-- The systems of the first copies. -/
def firstEquiv : (Σ s, Receivers I s) ≃ { t : Slot I // t.1.2.1 = 0 } where
  toFun t := ⟨firstSlot t, rfl⟩
  invFun t := ⟨t.1.1.1, t.1.2⟩
  left_inv t := rfl
  right_inv t := by
    obtain ⟨⟨⟨s, c, hc⟩, q⟩, h⟩ := t
    have h' : c = 0 := h
    subst h'
    rfl

def firstBlocks : Fin I.scenario.nSources ≃ { b : Block I // b.2.1 = 0 } where
  toFun s := ⟨⟨s, ⟨0, by omega⟩⟩, rfl⟩
  invFun b := b.1.1
  left_inv s := rfl
  right_inv b := by
    obtain ⟨⟨s, c, hc⟩, h⟩ := b
    have h' : c = 0 := h
    subst h'
    rfl

theorem restrict_first (i j : { t : Slot I // t.1.2.1 = 0 } → A) :
    restrict (fun b : Block I => b.2.1 = 0) (fun b => N.state b.1) i j = tensor N.state (i ∘ firstEquiv) (j ∘ firstEquiv) := by
  unfold restrict tensor
  rw [← Equiv.prod_comp firstBlocks]
  rfl

theorem value_restrict_first (X : Operator (Σ s, Receivers I s) A) :
    value (restrict (fun b : Block I => b.2.1 = 0) (fun b => N.state b.1)) (lift firstEquiv X) = value (tensor N.state) X := by
  rw [value_eq, value_eq]
  have e : ∀ f : ((Σ s, Receivers I s) → A) → ℂ, ∑ i : { t : Slot I // t.1.2.1 = 0 } → A, f (i ∘ firstEquiv) = ∑ i, f i :=
    fun f => Fintype.sum_equiv (Equiv.arrowCongr firstEquiv.symm (Equiv.refl A)) _ _ fun i => rfl
  simp only [restrict_first, lift_equiv]
  rw [← e fun i => ∑ j, tensor N.state i j * X j i]
  apply Finset.sum_congr rfl
  intro i _
  exact e fun j => tensor N.state (i ∘ firstEquiv) j * X j (i ∘ firstEquiv)

/-- Operators on the first copies have the value they have in the original network. -/
theorem value_first (X : Operator (Σ s, Receivers I s) A) : value (inflatedState N) (lift firstSlot X) = value (tensor N.state) X := by
  have h : ∀ X : Operator (Σ s, Receivers I s) A, value (inflatedState N) (lift firstSlot X) =
      value (tensor N.state) X * value (restrict (fun b : Block I => ¬ b.2.1 = 0) (fun b => N.state b.1)) 1 := by
    intro X
    have h1 := value_split (fun b : Block I => b.2.1 = 0) (fun b => N.state b.1) (lift firstEquiv X) 1
    rw [lift_one, mul_one, ← lift_comp Subtype.val_injective, value_restrict_first] at h1
    exact h1
  have h1 := h 1
  rw [lift_one] at h1
  have e1 : value (inflatedState N) 1 = 1 := by
    unfold value
    rw [mul_one]
    exact state_trace N
  have e2 : value (tensor N.state) (1 : Operator (Σ s, Receivers I s) A) = 1 := by
    unfold value
    rw [mul_one, tensor_trace, Finset.prod_congr rfl fun s _ => N.state_trace s, Finset.prod_const_one]
  rw [e1, e2, one_mul] at h1
  rw [h, ← h1, mul_one]

/-- The operators of an original event. -/
theorem original_ops (hI : I.Accepted) {a x : List Nat} {e : List Op} (h : Original I a x e) :
    e.map (opAt N) = (List.finRange I.scenario.nParties).map fun p =>
      lift firstSlot (lift (origSlots p) (N.effect p (x.getD p 0) ((I.observed.parents p).map fun q => a.getD q 0) (a.getD p 0))) := by
  have hlen : e.length = I.scenario.nParties := by have := congrArg List.length h.parties; simpa using this
  apply List.ext_getElem (by simp [hlen])
  intro k h1 h2
  rw [List.length_map] at h1
  have hk : k < I.scenario.nParties := by omega
  rw [List.getElem_map, List.getElem_map, List.getElem_finRange]
  have hmem := List.getElem_mem h1
  have hparty : e[k].party = k + 1 := by
    have := congrArg (fun l : List Nat => l[k]?) h.parties
    simp only [List.getElem?_map, List.getElem?_eq_getElem h1, List.getElem?_range hk, Option.map_some] at this
    exact Option.some.inj this
  obtain ⟨p, y, z, hp, hd, _, _, ho⟩ := opAt_valid N hI (h.valid _ hmem)
  have hpk : p = ⟨k, hk⟩ := Fin.ext (by rw [hp, hparty]; rfl)
  subst hpk
  have e1 := ho e[k].outcome
  rw [show ({ e[k] with outcome := e[k].outcome } : Op) = e[k] from rfl] at e1
  have hset := h.setting _ hmem
  have hout := h.outcome _ hmem
  rw [hparty, Nat.add_sub_cancel] at hset hout
  have hd' : decodeSetting (I.dims k) e[k].setting = some (y :: z) := hd
  rw [hd'] at hset
  obtain ⟨rfl, rfl⟩ := List.cons.inj (Option.some.inj hset)
  have hslots : slots (⟨k, hk⟩ : Fin I.scenario.nParties) (copyOf I e[k]) = firstSlot ∘ origSlots ⟨k, hk⟩ := by
    funext s
    have hs : I.scenario.hyp s.1 (e[k].party - 1) = true := by rw [hparty]; exact s.2
    have hc := h.first _ hmem _ (List.mem_of_getElem? (level_copy (h.valid _ hmem) hs))
    have : copyOf I e[k] s.1 = ⟨0, by omega⟩ := Fin.ext (by dsimp only; omega)
    show (⟨⟨s.1, copyOf I e[k] s.1⟩, ⟨⟨k, hk⟩, s.2⟩⟩ : Slot I) = ⟨⟨s.1, ⟨0, by omega⟩⟩, ⟨⟨k, hk⟩, s.2⟩⟩
    rw [this]
  rw [e1, hslots, lift_comp firstSlot_injective, hout]
  rfl

/-- The Born rule for the inflated network agrees with that for the original network. -/
theorem born_original (hI : I.Accepted) {a x : List Nat} {e : List Op} (h : Original I a x e) :
    (inflate N hI).φ (op (inflate N hI).ρ (e.map (sdpRank I))) = N.prob (fun p => a.getD p 0) (fun p => x.getD p 0) := by
  have h1 : op (inflate N hI).ρ (e.map (sdpRank I)) = (e.map (opAt N)).prod := by
    unfold op
    rw [List.map_map]
    congr 1
    apply List.map_congr_left
    intro y hy
    exact opRank_sdpRank N (h.valid y hy)
  have h2 := original_ops N hI h
  rw [h1, h2, show ((List.finRange I.scenario.nParties).map fun p =>
      lift firstSlot (lift (origSlots p) (N.effect p (x.getD p 0) ((I.observed.parents p).map fun q => a.getD q 0) (a.getD p 0)))) =
      ((List.finRange I.scenario.nParties).map fun p => lift (origSlots p) (N.effect p (x.getD p 0) ((I.observed.parents p).map fun q => a.getD q 0) (a.getD p 0))).map (lift firstSlot) by
        rw [List.map_map]; rfl, lift_listProd firstSlot_injective]
  refine (value_first N _).trans ?_
  rw [value_eq]
  unfold QuantumNetwork.prob
  apply Finset.sum_congr rfl
  intro i _
  apply Finset.sum_congr rfl
  intro j _
  rw [parties_prod _ _ (List.nodup_finRange _), if_pos fun t ht => absurd (List.mem_finRange _) ht]
  congr 1

/-- A distribution of the network is given by the inflated model to the original network. -/
theorem generates_of_network (hI : I.Accepted) {P : List Nat → Rat} (h : N.Generates fun t => ((P t : Rat) : ℂ)) :
    (ofQuantum (inflate N hI)).Generates fun t => ((P t : Rat) : ℝ) := by
  intro a ha x hx e he
  show ((P (a ++ x) : Rat) : ℝ) = (((inflate N hI).φ (op (inflate N hI).ρ (e.map (sdpRank I))))).re
  rw [born_original N hI he, ← h a ha x hx]
  simp

end Verif.QuantumNet
