import Verif.SdpNames.Words
/-!
The adjoint of an atom, sdp/monomial_classes.py 90-104, is an involution on the atoms of the program.
-/
namespace Verif.Linear
open Verif.Common Verif.Canon Verif.Canon.Spec Verif.Scenario Verif.Moment Verif.MomentMatrix Verif.SymMM Verif.SdpRepr Verif.SdpEnd Verif.SdpNames
open Verif.State (Dict Mon)
open Verif.EndToEnd (Input)

variable {I : Input}

theorem commEq_reverse {comm : Nat → Nat → Prop} (hs : ∀ a b, comm a b → comm b a) {u v : List Nat} (h : CommEq comm u v) : CommEq comm u.reverse v.reverse := by
  induction h with
  | refl => exact .refl _
  | symm _ ih => exact .symm ih
  | trans _ _ ih1 ih2 => exact .trans ih1 ih2
  | swap u a b v h =>
    simp only [List.reverse_append, List.reverse_cons, List.append_assoc, List.cons_append, List.nil_append]
    exact .swap _ _ _ _ (hs _ _ h)

theorem sameOrbit_reverse {u v : List Nat} (h : SameOrbit (notcomm I) (symmetries I) u v) : SameOrbit (notcomm I) (symmetries I) u.reverse v.reverse := by
  obtain ⟨r, hr, e⟩ := h
  refine ⟨r, hr, ?_⟩
  rw [List.map_reverse]
  exact commEq_reverse (fun a b h => by rw [(operatorList I).nc_symm]; exact h) e

/-- Commuting letters are a property of the orbit. -/
theorem allCommuting_orbit {u v : List Nat} (h : SameOrbit (notcomm I) (symmetries I) u v) (c : Bool) (hv : allCommuting (notcomm I) c v = true) : allCommuting (notcomm I) c u = true := by
  obtain ⟨r, hr, e⟩ := h
  unfold allCommuting at hv ⊢
  rw [Bool.or_eq_true] at hv ⊢
  rcases hv with hv | hv
  · exact .inl hv
  · right
    simp only [Bool.not_eq_true', List.any_eq_false, Bool.not_eq_true] at hv ⊢
    intro a ha b hb
    have h1 : r.getD a a ∈ v := e.perm.mem_iff.1 (List.mem_map.2 ⟨a, ha, rfl⟩)
    have h2 : r.getD b b ∈ v := e.perm.mem_iff.1 (List.mem_map.2 ⟨b, hb, rfl⟩)
    have := hv _ h1 _ h2
    rwa [(symData I).comm r hr] at this

theorem allCommuting_reverse (c : Bool) (w : List Nat) : allCommuting (notcomm I) c w.reverse = allCommuting (notcomm I) c w := by
  unfold allCommuting
  simp [List.any_reverse]

/-- The adjoint is an involution. -/
theorem dagger_dagger {ch : Choice} (hch : UsualChoice ch I) {a : Atom} (h : Representative I a) : ch.dagger (ch.dagger a) = a := by
  obtain ⟨m, hm, e⟩ := hch.dagger a h.range h.reduced
  have hb := dagger_representative hch h
  obtain ⟨m', hm', e'⟩ := hch.dagger _ hb.range hb.reduced
  by_cases hc : allCommuting (notcomm I) (allCommute I) a = true
  · have : ch.dagger a = a := by rw [e]; unfold conjugate; rw [if_pos hc]
    rw [this, this]
  · have h1 : InRange I a.reverse := inRange_reverse.2 h.range
    have h2 := Positivity.reduced_reverse (operatorList I).nc_symm h.reduced
    have hl : IsLeast (notcomm I) (symmetries I) a.reverse (ch.dagger a) := by
      rw [e]; unfold conjugate; rw [if_neg hc]; exact usual_least hm true h1 h2
    have hnc : ¬ allCommuting (notcomm I) (allCommute I) (ch.dagger a) = true := by
      intro hd
      have := allCommuting_orbit hl.1 _ hd
      rw [allCommuting_reverse] at this
      exact hc this
    have h3 : InRange I (ch.dagger a).reverse := inRange_reverse.2 hb.range
    have h4 := Positivity.reduced_reverse (operatorList I).nc_symm hb.reduced
    have hl' : IsLeast (notcomm I) (symmetries I) (ch.dagger a).reverse (ch.dagger (ch.dagger a)) := by
      rw [e']; unfold conjugate; rw [if_neg hnc]; exact usual_least hm' true h3 h4
    have ho := sameOrbit_reverse hl.1
    rw [List.reverse_reverse] at ho
    exact isLeast_unique hl' (isLeast_congr (symData I) h.range ho h.least)

end Verif.Linear
