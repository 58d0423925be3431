import Verif.Distinct.Closure
import Verif.Distinct.Ready
import Verif.EndToEnd.Solver
import Verif.Theory.Known
/-!
The generated matrices have at least one row and no empty row.
-/
namespace Verif.Distinct
open Verif.Common Verif.Scenario Verif.Orbits Verif.Components Verif.Moment Verif.State Verif.EndToEnd Verif.Sanitise Verif.SdpEnd
open Verif.Symmetry (lexorderSymmetries)
open Verif.CollinsGisin

variable {n : Nat} {gs : Groups} {adj : Nat → Nat → Bool} {symReq : Bool} {syms : List (List Nat)}

theorem combos_ne (bs : List (List Nat)) : combos bs ≠ [] := by
  unfold combos
  have key : ∀ (bs : List (List Nat)) (X : List (Bool × List Nat)), X ≠ [] → bs.foldl (fun X b => combine X (alt b)) X ≠ [] := by
    intro bs
    induction bs with
    | nil => exact fun X h => h
    | cons b bs ih =>
      intro X h
      rw [List.foldl_cons]
      apply ih
      cases X with
      | nil => exact absurd rfl h
      | cons x X => simp [combine, alt]
  exact key bs _ (by simp)

theorem mapM_length {α β : Type} {f : α → Option β} {l : List α} {r : List β} (h : l.mapM f = some r) : r.length = l.length :=
  (Verif.LpSolver.mapM_forall₂ h).length_eq.symm

theorem equalities_ne {rows : List (List (Int × Nat))} (h : equalities n gs adj symReq syms = some rows) : ∀ row ∈ rows, row ≠ [] := by
  intro row hrow e
  obtain ⟨bv, _, hb⟩ := mem_of_mapM h hrow
  obtain ⟨ts, _, hts⟩ := Option.bind_eq_some_iff.1 hb
  have := mapM_length hts
  rw [e] at this
  simp at this

theorem inequalities_ne (hne : gs ≠ []) (hB : BlocksOk n (blocksOf gs)) (hs : ∀ a b, adj a b = adj b a) {rows : List (List (Int × Nat))}
    (h : inequalities n gs adj symReq syms = some rows) : ∀ row ∈ rows, row ≠ [] := by
  intro row hrow e
  obtain ⟨bv, hbv, hb⟩ := mem_of_mapM h hrow
  obtain ⟨ev, hev, rfl⟩ := (mem_maximalEvents hne hB hs _).1 (representatives_mem hbv)
  have hsub := flagBlocks_sublist gs false
  unfold inequalityRow at hb
  rw [flagged_eq] at hb
  split at hb
  · rename_i hcr
    rw [critical_any hB hsub] at hcr
    rw [terms_eq hB hsub (fun b hb => (critBlocks_sublist _ _).subset hb) hcr (crit_eq hB hsub)] at hb
    have := mapM_length (show List.mapM _ _ = some row from hb)
    rw [e, List.length_map] at this
    exact combos_ne _ (List.length_eq_zero_iff.1 this.symm)
  · have := mapM_length (show List.mapM _ _ = some row from hb)
    rw [e] at this
    simp at this

theorem event_length (hB : BlocksOk n (blocksOf gs)) {e : List Nat} (he : IsEvent (blocksOf gs) adj e) : e.length ≤ n := by
  have hsp : e.Subperm (List.range n) := (hB.event_nodup he).subperm fun x hx => List.mem_range.2 ((hB.isEvent_iff.1 he).1 x hx)
  simpa using hsp.length_le

/-- Every event can be completed to a global one. -/
theorem exists_global (hB : BlocksOk n (blocksOf gs)) : ∀ (k : Nat) (e : List Nat), IsEvent (blocksOf gs) adj e → n - e.length ≤ k → ∃ e', IsGlobalEvent (blocksOf gs) adj e' := by
  intro k
  induction k with
  | zero =>
    intro e he hk
    refine ⟨e, he, ?_⟩
    intro i b hb r hr hev
    have := event_length hB hev
    simp only [List.length_cons] at this
    omega
  | succ k ih =>
    intro e he hk
    by_cases hg : IsGlobalEvent (blocksOf gs) adj e
    · exact ⟨e, hg⟩
    · have hex : ∃ (i : Nat) (b : List Nat), (blocksOf gs)[i]? = some b ∧ ∃ r ∈ b, IsEvent (blocksOf gs) adj (r :: e) := by
        by_contra hcon
        push Not at hcon
        exact hg ⟨he, fun i b hb r hr hev => hcon i b hb r hr hev⟩
      obtain ⟨i, b, hb, r, hr, hev⟩ := hex
      refine ih _ hev ?_
      have := event_length hB hev
      simp only [List.length_cons] at this ⊢
      omega

theorem inequalities_pos (hne : gs ≠ []) (hB : BlocksOk n (blocksOf gs)) (hs : ∀ a b, adj a b = adj b a) (hG : symReq = true → IsGroup n syms)
    {rows : List (List (Int × Nat))} (h : inequalities n gs adj symReq syms = some rows) : 0 < rows.length := by
  obtain ⟨e, he⟩ := exists_global (adj := adj) hB n [] ⟨by simp, by simp⟩ (by simp)
  have hmax := (mem_maximalEvents hne hB hs _).2 ⟨e, he, rfl⟩
  obtain ⟨c, w, _, hw, _, _⟩ := columnOf_spec hG (fun v hv => by
    obtain ⟨e, _, rfl⟩ := (mem_maximalEvents hne hB hs v).1 hv
    exact boolKey_length n e) (nodup_maximalEvents hne hB hs) hmax
  obtain ⟨hc, _⟩ := List.getElem?_eq_some_iff.1 hw
  rw [mapM_length h]
  omega

variable {I : Input} {F : Type} [Field F] [LinearOrder F] [IsStrictOrderedRing F]

theorem groups_ne (hI : I.Accepted) : groupsOf I.scenario I.hasChildren I.allOutcomes ≠ [] := by
  rw [groupsOf_eq]
  simpa using measKeys_ne hI

/-- **Building the program never fails**, and its variables are closed under taking factors. -/
theorem lpEnv_exists (hI : I.Accepted) (hS : copiesOf I.scenario ≤ 254) (name : Atom → String) : ∃ E, I.lpEnv name = some E ∧ ClosedEnv E ∧ E.monomials = I.monomials ∧ E.san = id := by
  obtain ⟨eqs, ineqs, h1, h2, _⟩ := C28_every_problem (K := Rat) I.scenario I.D hI.out_pos (measKeys_ne hI) I.anyNonclassical I.hasChildren I.allOutcomes I.symmetrize
  have hhead := monomials_head hI
  have hnd := monomials_nodup hI hS
  refine ⟨_, by unfold Input.lpEnv; rw [h1, h2]; simp only []; rw [if_pos ⟨hhead, hnd⟩], ⟨rfl, ?_, ?_⟩, rfl, rfl⟩
  · exact List.mem_of_head? hhead
  · exact fun m hm l hl => monomials_closed hI hS hm hl

theorem toMat_rows (k : Nat) (rows : List (Dict Nat Rat)) : (toMat k rows : LpSolver.Coo F).rows = rows.length := by
  unfold toMat Verif.LpSolver.rowsMat
  simp

end Verif.Distinct
