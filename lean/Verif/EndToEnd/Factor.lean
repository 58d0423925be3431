import Verif.EndToEnd.Inflated
import Verif.Knowable.Props
/-!
The probabilities of a classical model factorise over independent components, and events of single copies have the probabilities of the original network.
-/
namespace Verif.EndToEnd
open Verif.Scenario Verif.Orbits Verif.CollinsGisin Verif.Symmetry Verif.Components

variable {S : Scenario} {O : Observed} {Λ F : Type} [Fintype Λ] [Field F] [LinearOrder F]

namespace ClassicalModel
variable (M : ClassicalModel S O Λ F)

/-- The copies an event depends on. -/
def touches (S : Scenario) (e : List Nat) (c : Copy S) : Prop :=
  c.2.val ≠ 0 ∧ ∃ r ∈ e, ∃ op, S.lexorder[r]? = some op ∧ op.copies[c.1.val]? = some c.2.val

theorem prod_congr {e : List Nat} (he : ∀ r ∈ e, r < S.lexorder.length) {ν μ : Copy S → Λ} (h : ∀ c, touches S e c → ν c = μ c) :
    (e.map fun r => M.rankResponse r ν).prod = (e.map fun r => M.rankResponse r μ).prod := by
  congr 1
  apply List.map_congr_left
  intro r hr
  have hlt := he r hr
  rw [M.rankResponse_of (List.getElem?_eq_getElem hlt), M.rankResponse_of (List.getElem?_eq_getElem hlt)]
  apply M.opResponse_congr (lex_valid S hlt)
  intro c h0 hc
  exact h c ⟨h0, r, hr, _, List.getElem?_eq_getElem hlt, hc⟩

/-- Events without a common copy are independent. -/
theorem event_append {e f : List Nat} (he : ∀ r ∈ e, r < S.lexorder.length) (hf : ∀ r ∈ f, r < S.lexorder.length)
    (h : ∀ a ∈ e, ∀ b ∈ f, ∀ x y, S.lexorder[a]? = some x → S.lexorder[b]? = some y → ¬ ShareCopy x y) :
    M.event (e ++ f) = M.event e * M.event f := by
  classical
  unfold event
  rw [← expect_indep (touches S e) (fun c : Copy S => M.source c.1) M.weight_sum]
  · apply expect_congr
    intro ν
    rw [List.map_append, List.prod_append]
  · intro ν μ hh
    exact M.prod_congr he hh
  · intro ν μ hh
    apply M.prod_congr hf
    intro c hc
    apply hh
    rintro ⟨h0, a, ha, x, hx, hxc⟩
    obtain ⟨_, b, hb, y, hy, hyc⟩ := hc
    exact h a ha b hb x y hx hy ⟨c.1, c.2, h0, hxc, hyc⟩

theorem event_flatten (fs : List (List Nat)) (hv : ∀ f ∈ fs, ∀ r ∈ f, r < S.lexorder.length)
    (h : fs.Pairwise fun e f => ∀ a ∈ e, ∀ b ∈ f, ∀ x y, S.lexorder[a]? = some x → S.lexorder[b]? = some y → ¬ ShareCopy x y) :
    M.event fs.flatten = (fs.map M.event).prod := by
  induction fs with
  | nil =>
    show expect _ (fun _ => (1 : F)) = 1
    exact expect_one _ M.weight_sum
  | cons f fs ih =>
    rw [List.pairwise_cons] at h
    rw [List.flatten_cons, M.event_append (hv f (by simp)) ?_ ?_, ih (fun g hg => hv g (List.mem_cons_of_mem _ hg)) h.2]
    · rfl
    · intro r hr
      obtain ⟨g, hg, hrg⟩ := List.mem_flatten.1 hr
      exact hv g (List.mem_cons_of_mem _ hg) r hrg
    · intro a ha b hb
      obtain ⟨g, hg, hbg⟩ := List.mem_flatten.1 hb
      exact h.1 g hg a ha b hbg

/-- At most 255 independent factors: the capacity of the code's component labels (see C10). -/
def Capacity (S : Scenario) (mon : List Nat) : Prop :=
  ∀ reps : List Nat, (∀ r ∈ reps, r ∈ mon) → reps.Pairwise (fun a b => ¬ Joined S mon a b) → reps.length ≤ 255

/-- The probability of an event is the product of the probabilities of its factors. -/
theorem event_factorize (mon : List Nat) (hv : ∀ a ∈ mon, a < S.lexorder.length) (hcap : Capacity S mon) :
    M.event mon = ((factorize S mon).map M.event).prod := by
  by_cases hne : mon = []
  · subst hne
    have : factorize S [] = [[]] := by simp [factorize]
    rw [this]
    simp
  obtain ⟨h1, h2, _, _⟩ := C09_factorization S mon hne hv hcap
  rw [← M.event_flatten]
  · exact (M.event_perm h1).symm
  · intro f hf r hr
    exact hv r ((h2 f hf).2.subset hr)
  · rw [List.pairwise_iff_getElem]
    intro i j hi hj hij a ha b hb x y hx hy
    exact C09_factors_independent S mon hv hcap i j _ _ (List.getElem?_eq_getElem hi) (List.getElem?_eq_getElem hj) (by omega) a b ha hb x y hx hy

/-- The response of an operator when the sources have the given values. -/
def opAt (op : Op) (l : Fin S.nSources → Λ) : F :=
  match decodeSetting (O.dims S (op.party - 1)) op.setting with
  | some (x :: y) => M.response (op.party - 1) x y op.outcome l
  | _ => 0

theorem opAt_congr (op : Op) {l m : Fin S.nSources → Λ} (h : ∀ s : Fin S.nSources, S.hyp s (op.party - 1) = true → l s = m s) : M.opAt op l = M.opAt op m := by
  unfold opAt
  split
  · exact M.response_local _ _ _ _ _ _ h
  · rfl

/-- An event that uses only one copy of each source has the probability of the same event with a single copy of each source. -/
theorem event_single (e : List Nat) (ops : List Op) (he : e.map (S.lexorder[·]?) = ops.map some)
    (hone : Knowable.oneCopyPerSource S.nSources ops = true) :
    M.event e = expect M.source fun l => (ops.map fun op => M.opAt op l).prod := by
  have hval : ∀ op ∈ ops, Valid S op := by
    intro op hop
    have : some op ∈ ops.map some := List.mem_map.2 ⟨op, hop, rfl⟩
    rw [← he] at this
    obtain ⟨r, _, hr⟩ := List.mem_map.1 this
    exact (mem_lexorder S).1 (List.mem_of_getElem? hr)
  have hone' := Knowable.oneCopy_iff.1 hone
  -- the copy used
  have hk : ∀ s : Fin S.nSources, ∃ k : Fin (max (S.level s) 1 + 1), ∀ op ∈ ops, op.copies.getD s 0 ≠ 0 → op.copies.getD s 0 = k.val := by
    intro s
    by_cases hex : ∃ op ∈ ops, op.copies.getD s 0 ≠ 0
    · obtain ⟨op, hop, h0⟩ := hex
      have := Knowable.copies_getD (hval op hop) s.2
      refine ⟨⟨op.copies.getD s 0, by omega⟩, ?_⟩
      intro op' hop' h0'
      exact hone' s s.2 op' hop' op hop h0' h0
    · push Not at hex
      exact ⟨0, fun op hop h0 => absurd (hex op hop) h0⟩
  choose k hk using hk
  have hf : Function.Injective (fun s : Fin S.nSources => (⟨s, k s⟩ : Copy S)) := by
    intro s t h
    exact (Sigma.mk.inj_iff.1 h).1
  have h := expect_restrict (fun s : Fin S.nSources => (⟨s, k s⟩ : Copy S)) hf (fun c : Copy S => M.source c.1) M.weight_sum
    (fun l => (ops.map fun op => M.opAt op l).prod)
  have hw : (fun j : Fin S.nSources => M.source (⟨j, k j⟩ : Copy S).1) = M.source := rfl
  rw [hw] at h
  rw [← h]
  apply expect_congr
  intro ν
  have h1 : (e.map fun r => M.rankResponse r ν) = (e.map (S.lexorder[·]?)).map fun o => match o with | some op => M.opResponse op ν | none => 1 := by
    rw [List.map_map]; rfl
  rw [h1, he, List.map_map]
  congr 1
  apply List.map_congr_left
  intro op hop
  show M.opAt op (seen op ν) = M.opAt op _
  apply M.opAt_congr
  intro s hs
  have hl : s.val < op.copies.length := by rw [(hval op hop).copies_len]; exact s.2
  have hc := (hval op hop).copies_ok s hl
  rw [if_pos hs] at hc
  have hg : op.copies.getD s 0 = op.copies[s.val] := List.getD_eq_getElem _ _ hl
  have := hk s op hop (by rw [hg]; omega)
  show ν _ = ν _
  congr 1
  congr 1
  apply Fin.ext
  rw [Fin.val_ofNat, this]
  exact Nat.mod_eq_of_lt (k s).2

end ClassicalModel
end Verif.EndToEnd
