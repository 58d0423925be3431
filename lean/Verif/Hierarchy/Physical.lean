import Verif.Hierarchy.Props
import Verif.Physical.Props
/-!
C75 for physical generating sets.
-/
namespace Verif.Hierarchy
open Verif.Common Verif.Canon Verif.Canon.Spec Verif.Scenario Verif.Components Verif.Moment Verif.MomentMatrix Verif.SymMM Verif.SdpRepr Verif.SdpEnd Verif.SdpNames Verif.Symmetry Verif.Generate Verif.Physical
open Verif.Columns (Allowed partyOf FromBlock Ops measOps mem_measOps ops_ok commEq_sortBy mem_product_of partyOf_lt sorted_parties cutoff le_cutoff length_le_sum)
open Verif.State (Dict Mon)
open Verif.SdpState (Call Args SolverOut)
open Verif.EndToEnd (Input)

variable {I : Input} {ch : Choice} {name : Atom → String}

/-- **C75, every pair of generating sets that the relabellings of the copies preserve.** -/
theorem C75_closed_sets (hch : UsualChoice ch I) (hch' : ch.Computed I) (name : Atom → String) (hS : copiesOf I.scenario ≤ 254) (hnet : I.isNetwork = true) {cols₁ cols₂ : List (List Nat)}
    (h₁ : ColsOk (nOps I) (notcomm I) (orthomat I) (allCommute I) cols₁) (h₂ : ColsOk (nOps I) (notcomm I) (orthomat I) (allCommute I) cols₂) (hc₁ : ClosedUnder I cols₁) (hc₂ : ClosedUnder I cols₂)
    (hone : [] ∈ cols₁) (hsub : ∀ m ∈ cols₁, m ∈ cols₂) : AtLeastAsStrong I ch name cols₂ cols₁ := by
  obtain ⟨B₁, hB₁⟩ := C68_relaxation_generated hch name hS h₁ hc₁ (.inl hnet)
  obtain ⟨B₂, hB₂⟩ := C68_relaxation_generated hch name hS h₂ hc₂ (.inl hnet)
  have hV₁ : Setup I cols₁ ch name B₁ := ⟨h₁, hS, hch', hB₁, equalitiesProper_of_network hnet _ _⟩
  have hV₂ : Setup I cols₂ ch name B₂ := ⟨h₂, hS, hch', hB₂, equalitiesProper_of_network hnet _ _⟩
  refine ⟨B₁, B₂, hB₁, hB₂, ?_⟩
  intro P shared₁ shared₂ c₁ c₂ l solver₁ solver₂ a₁ a₂ h1 h2 hf hl ok1 ok2 ha1 ha2 v s hv
  refine C75_larger_is_stronger (P := P) (shared₁ := shared₁) (shared₂ := shared₂) (l := l) (solver₁ := solver₁) (solver₂ := solver₂) ⟨hch, hV₁, hV₂, hsub, hone, ?_, hf, hl, ⟨c₁, h1, ok1, ha1⟩, ⟨c₂, h2, ok2, ha2⟩⟩ hv
  rw [minEq_network hnet hV₁]
  simp

/-- The limit on the length is weaker. -/
def LengthLe (a b : Nat) : Prop := b = 0 ∨ (a ≠ 0 ∧ a ≤ b)

/-- The levels are weaker. -/
def CapsLe (caps₁ caps₂ : List (Option Nat)) : Prop := ∀ (p c : Nat), caps₂[p]? = some (some c) → ∃ c', caps₁[p]? = some (some c') ∧ c' ≤ c

/-- **C75, physical levels.** For every network, a physical level is at least as strong as one with no more operators of any party and no greater `max_monomial_length`. -/
theorem C75_physical_levels (hout : HasOutcomes I) (hch : UsualChoice ch I) (hch' : ch.Computed I) (name : Atom → String) (hS : copiesOf I.scenario ≤ 254) (hnet : I.isNetwork = true)
    {maxLen₁ maxLen₂ : Nat} {caps₁ caps₂ : List (Option Nat)} (hl : LengthLe maxLen₁ maxLen₂) (hc : CapsLe caps₁ caps₂) :
    AtLeastAsStrong I ch name (physicalCols I maxLen₂ caps₂) (physicalCols I maxLen₁ caps₁) := by
  refine C75_closed_sets hch hch' name hS hnet (C69_columns_suit_moment_matrix hout _ _) (C69_columns_suit_moment_matrix hout _ _) (C69_closed hout _ _) (C69_closed hout _ _) (C69_unit hout _ _) fun m hm => ?_
  have h := (C69_physical_columns hout maxLen₁ caps₁ m).1 hm
  refine (C69_physical_columns hout maxLen₂ caps₂ m).2 ⟨h.sorted, h.letters, h.together, ?_, ?_⟩
  · rcases hl with hl | ⟨h0, hl⟩
    · exact .inl hl
    · rcases h.within.length with h1 | h1
      · exact absurd h1 h0
      · exact .inr (h1.trans hl)
  · intro p c hp
    obtain ⟨c', hp', hle⟩ := hc p c hp
    exact (h.within.party p c' hp').trans hle

/-- A physical column is obtained from the block of its parties. -/
theorem physical_block {maxLen : Nat} {caps : List (Option Nat)} {m : List Nat} (h : PhysicalWord I maxLen caps m) :
    FromBlock (toCanonical (notcomm I) (orthomat I) (allCommute I) false) (measOps I.scenario.sdpLexorder (cardinalities I))
      ((sortBy (fun a b => decide (partyOf I.scenario a ≤ partyOf I.scenario b)) m).map (partyOf I.scenario)) m := by
  have hO := ops_ok I.scenario (cardinalities I)
  have hm : ∀ x ∈ m, x ∈ measOps I.scenario.sdpLexorder (cardinalities I) (partyOf I.scenario x) := by
    intro x hx
    obtain ⟨p, hp⟩ := h.letters x hx
    have hx' := (mem_measOps I.scenario (cardinalities I)).2 hp
    rw [hO.party p x hx']
    exact hx'
  rcases m with _ | ⟨a, t⟩
  · exact .inl ⟨rfl, rfl⟩
  · right
    set m := a :: t with hmdef
    have hperm := sortBy_perm (fun a b => decide (partyOf I.scenario a ≤ partyOf I.scenario b)) m
    have hcom := h.commuting
    refine ⟨?_, sortBy (fun a b => decide (partyOf I.scenario a ≤ partyOf I.scenario b)) m, ?_, ?_, ?_, ?_⟩
    · intro e
      have : (sortBy (fun a b => decide (partyOf I.scenario a ≤ partyOf I.scenario b)) m).length = 0 := by
        rw [← List.length_map (f := partyOf I.scenario), e]; rfl
      rw [hperm.length_eq] at this
      simp [hmdef] at this
    · exact mem_product_of fun x hx => hm x (hperm.mem_iff.1 hx)
    · have hcc := h.canonical (allCommute I) (fun e => commuting_none e) false
      have hlt := h.inRange
      have hcan := h.canonical false (by simp) false
      have e : toCanonical (notcomm I) (orthomat I) (allCommute I) false = toCanonical (notcomm I) (orthomat I) false false :=
        funext fun w => Columns.canon_eq (fun e => commuting_none e) (w := w)
      rw [e]
      conv_rhs => rw [← hcan]
      rw [toCanonical_iff (operatorList I) (fun x hx => hlt x (hperm.mem_iff.1 hx)) hlt]
      exact (OpEq.of_commEq (commEq_sortBy _ _ fun x hx y hy _ => hcom x hx y hy)).symm
    · intro e
      have h0 := h.letters 0 (by rw [e]; simp)
      obtain ⟨p, hp⟩ := h0
      exact Nat.lt_irrefl 0 (hO.lt _ _ ((mem_measOps I.scenario (cardinalities I)).2 hp)).1
    · rw [List.length_map, hperm.length_eq]

/-- **C75, physical and local levels.** For every network, the local level with the same numbers of operators is at least as strong as the physical level. -/
theorem C75_physical_below_local (hout : HasOutcomes I) (hch : UsualChoice ch I) (hch' : ch.Computed I) (name : Atom → String) (hS : copiesOf I.scenario ≤ 254) (hnet : I.isNetwork = true)
    {lengths : List Nat} (hl : lengths.length = I.scenario.nParties) (maxLen : Nat) :
    AtLeastAsStrong I ch name (specCols I (Columns.localSpecs I.scenario.nParties lengths maxLen)) (physicalCols I maxLen (lengths.map some)) := by
  refine C75_closed_sets hch hch' name hS hnet (C69_columns_suit_moment_matrix hout _ _) (specCols_ok (Columns.count_localSpecs hl)) (C69_closed hout _ _) (specCols_closed _) (C69_unit hout _ _) fun m hm => ?_
  have h := (C69_physical_columns hout maxLen _ m).1 hm
  have hperm := sortBy_perm (fun a b => decide (partyOf I.scenario a ≤ partyOf I.scenario b)) m
  have hlt : ∀ x ∈ m, partyOf I.scenario x < I.scenario.nParties := by
    intro x hx
    obtain ⟨p, hp⟩ := h.letters x hx
    have := (ops_ok I.scenario (cardinalities I)).lt p x ((mem_measOps I.scenario _).2 hp)
    exact partyOf_lt I.scenario this.1 this.2
  have hcount : ∀ p < I.scenario.nParties, (m.map (partyOf I.scenario)).count p ≤ lengths.getD p 0 := by
    intro p hp
    refine h.within.party p _ ?_
    rw [List.getElem?_map, List.getElem?_eq_getElem (by omega), List.getD_eq_getElem _ _ (by omega)]
    rfl
  refine Columns.mem_cols.2 ⟨_, (Columns.mem_localSpecs hl).2 ⟨sorted_parties _ _, ?_, ?_, ?_⟩, physical_block h⟩
  · intro p hp
    obtain ⟨x, hx, rfl⟩ := List.mem_map.1 hp
    exact hlt x (hperm.mem_iff.1 hx)
  · intro p hp
    rw [(hperm.map (partyOf I.scenario)).count_eq]
    exact hcount p hp
  · rw [List.length_map, hperm.length_eq, le_cutoff]
    refine ⟨?_, fun h0 => ?_⟩
    · have := length_le_sum (m.map (partyOf I.scenario)) lengths (by
        intro x hx
        obtain ⟨y, hy, rfl⟩ := List.mem_map.1 hx
        rw [hl]
        exact hlt y hy) (by rw [hl]; exact hcount)
      rwa [List.length_map] at this
    · rcases h.within.length with h1 | h1
      · omega
      · exact h1

end Verif.Hierarchy
