import Verif.Generate.Build
import Verif.Columns.Props
/-!
The generating sets that `_build_cols_from_specs` makes are mapped to themselves by every relabelling of the copies.
-/
namespace Verif.Generate
open Verif.Common Verif.Canon Verif.Canon.Spec Verif.Scenario Verif.Components Verif.Moment Verif.MomentMatrix Verif.SymMM Verif.SdpRepr Verif.SdpEnd Verif.SdpNames Verif.Symmetry
open Verif.Columns (problemCols Allowed mem_measOps mem_cols mem_product fromBlock_sound ops_ok product_mem product)
open Verif.State (Dict Mon)
open Verif.EndToEnd (Input)

variable {I : Input}

/-- `_build_cols_from_specs`, InflationSDP.py 1735-1793, for the relaxation of a problem. -/
def specCols (I : Input) (specs : List (List Nat)) : List (List Nat) := problemCols I.scenario I.D I.anyNonclassical (allCommute I) (cardinalities I) specs

theorem commuting_none (h : allCommute I = true) : ∀ a b, notcomm I a b = false := (allCommute_iff I).1 h

/-- A relabelling maps the operators which may appear in columns to such operators of the same party. -/
theorem allowed_image {card : Nat → Nat} {r : List Nat} (hr : r ∈ symmetries I) {p x : Nat} (h : Allowed I.scenario card p x) : Allowed I.scenario card p (r.getD x x) := by
  obtain ⟨r', hr', rfl⟩ := List.mem_map.1 hr
  obtain ⟨σ, hσ, rfl⟩ := (Verif.Symmetry.mem_symmetries _).1 hr'
  obtain ⟨o, h1, h2, h3⟩ := h
  have h0 : x ≠ 0 := by
    rintro rfl
    simp only [Scenario.sdpLexorder, List.getElem?_cons_zero, Option.some.injEq] at h1
    rw [← h1] at h2
    simp [zeroOp] at h2
  have hx : x < nOps I := by
    have := (List.getElem?_eq_some_iff.1 h1).1
    simpa [Scenario.sdpLexorder, nOps] using this
  exact ⟨_, act_rank hσ hx h0 h1, h2, h3⟩

theorem specCols_closed (specs : List (List Nat)) : ClosedUnder I (specCols I specs) := by
  intro r hr m hm
  obtain ⟨b, hb, hfb⟩ := mem_cols.1 hm
  have hs := fromBlock_sound (Verif.Scenario.scenario_operatorList I.scenario I.D.tbl I.anyNonclassical) (fun h => commuting_none h) (ops_ok I.scenario (cardinalities I)) hfb
  rcases hfb with ⟨rfl, rfl⟩ | ⟨hne, w, hw, hc, h0, hl⟩
  · exact ⟨[], mem_cols.2 ⟨[], hb, .inl ⟨rfl, rfl⟩⟩, .refl _⟩
  have hpm := product_mem (ops_ok I.scenario (cardinalities I)) hw
  have hwr : InRange I w := fun x hx => ((ops_ok I.scenario (cardinalities I)).lt _ x (hpm.2.2 x hx)).2
  have hmr : InRange I m := fun x hx => ((ops_ok I.scenario (cardinalities I)).lt _ x (hs.2.2.2.2 x hx)).2
  have hm0 : 0 ∉ m := fun hx => by
    have := ((ops_ok I.scenario (cardinalities I)).lt _ 0 (hs.2.2.2.2 0 hx)).1
    omega
  have hred : Reduced (notcomm I) (orthomat I) m := by
    have := canonical_reduced hmr
    rwa [show toCanonical (notcomm I) (orthomat I) (allCommute I) false m = m from hs.1] at this
  have hred' : Reduced (notcomm I) (orthomat I) (mapW r m) := reduced_mapW (symData I) hr hmr hred
  have hcan : toCanonical (notcomm I) (orthomat I) (allCommute I) false (mapW r m) = lexmonToCanonical (notcomm I) (mapW r m) := canonAny hred' (fun h => commuting_none h) false
  have hce : CommEq (fun a b => notcomm I a b = false) (mapW r m) (toCanonical (notcomm I) (orthomat I) (allCommute I) false (mapW r m)) := by
    rw [hcan]; exact canon_sound _ _
  have hsame : toCanonical (notcomm I) (orthomat I) (allCommute I) false (mapW r w) = toCanonical (notcomm I) (orthomat I) (allCommute I) false (mapW r m) := by
    have e1 : OpEq (nOps I) (fun a b => notcomm I a b = false) (fun a b => orthomat I a b = true) w m := by
      have := canonical_opEq (I := I) false hwr
      rw [show toCanonical (notcomm I) (orthomat I) (allCommute I) false w = m from hc] at this
      exact this
    have e2 := (symData I).opEq (nOps_pos I) hr e1
    rw [canonC_eq (fun h => commuting_none h), canonC_eq (fun h => commuting_none h)]
    exact (C03_canonical_decides_operator_equality (operatorList I) _ _ ((symData I).mapW_lt hr hwr) ((symData I).mapW_lt hr hmr)).2 e2
  refine ⟨_, mem_cols.2 ⟨b, hb, .inr ⟨hne, mapW r w, ?_, hsame, ?_, ?_⟩⟩, hce⟩
  · rw [mem_product] at hw ⊢
    unfold mapW
    rw [List.forall₂_map_left_iff]
    rw [List.forall₂_map_right_iff] at hw ⊢
    exact hw.imp fun x p h => (mem_measOps _ _).2 (allowed_image hr ((mem_measOps _ _).1 h))
  · intro e
    have hx : 0 ∈ mapW r m := hce.perm.mem_iff.2 (by rw [e]; simp)
    obtain ⟨y, hy, e⟩ := List.mem_map.1 hx
    have hy0 : y ≠ 0 := fun h => hm0 (h ▸ hy)
    have hal := allowed_image hr ((mem_measOps _ _).1 (hs.2.2.2.2 y hy))
    have := ((ops_ok I.scenario (cardinalities I)).lt _ _ ((mem_measOps _ _).2 hal)).1
    omega
  · rw [← hce.perm.length_eq]
    unfold mapW
    rw [List.length_map, hl]

end Verif.Generate
