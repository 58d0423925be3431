import Verif.EndToEnd.Spec
import Verif.CollinsGisin.ProblemProps
import Verif.Components.Props
/-!
The probabilities of a classical model in the inflated network form an invariant, non-negative behaviour that factorises.
-/
namespace Verif.EndToEnd
open Verif.Scenario Verif.Orbits Verif.CollinsGisin Verif.Symmetry

variable {S : Scenario} {O : Observed} {Λ F : Type} [Fintype Λ] [Field F] [LinearOrder F]

namespace ClassicalModel
variable (M : ClassicalModel S O Λ F)

theorem weight_sum (c : Copy S) : ∑ v, M.source c.1 v = 1 := M.source_sum c.1

theorem event_perm {e e' : List Nat} (h : e.Perm e') : M.event e = M.event e' :=
  expect_congr _ fun ν => (h.map _).prod_eq

theorem vec_boolKey {e : List Nat} (hnd : e.Nodup) (hlt : ∀ r ∈ e, r < S.lexorder.length) : M.vec (boolKey S.lexorder.length e) = M.event e := by
  unfold vec
  apply event_perm
  rw [List.perm_ext_iff_of_nodup ((flatnonzero_sorted _).imp Nat.ne_of_lt) hnd]
  intro a
  rw [mem_flatnonzero_boolKey]
  exact ⟨fun h => h.2, fun h => ⟨hlt a h, h⟩⟩

theorem rankResponse_of {r : Nat} {op : Op} (h : S.lexorder[r]? = some op) (ν : Copy S → Λ) : M.rankResponse r ν = M.opResponse op ν := by
  unfold rankResponse
  rw [h]

theorem decode_some (hO : O.Ok S) {op : Op} (hv : Valid S op) :
    ∃ x y, decodeSetting (O.dims S (op.party - 1)) op.setting = some (x :: y) ∧ x < O.priv (op.party - 1) ∧
      y ∈ ndindex ((O.parents (op.party - 1)).map S.outcomes) := by
  have hlt := hv.setting_lt
  have h1 := hv.party_pos
  have h2 := hv.party_le
  rw [hO.settings _ (by omega)] at hlt
  have hl : op.setting < (ndindex (O.dims S (op.party - 1))).length := by
    rw [length_ndindex]; exact hlt
  have hm := List.getElem_mem hl
  rw [decodeSetting_eq, List.getElem?_eq_getElem hl]
  generalize (ndindex (O.dims S (op.party - 1)))[op.setting] = t at hm
  have h3 := mem_ndindex.1 hm
  unfold Observed.dims at h3
  match t, h3 with
  | [], h3 => simp at h3
  | x :: y, h3 =>
    refine ⟨x, y, rfl, ?_, ?_⟩
    · have := h3.2 0 (by simp) (by simp)
      exact this
    · rw [mem_ndindex]
      refine ⟨by simpa using h3.1, ?_⟩
      intro s h h'
      have := h3.2 (s + 1) (by simpa using h) (by simpa using h')
      simpa using this

theorem opResponse_nonneg (op : Op) (ν : Copy S → Λ) : 0 ≤ M.opResponse op ν := by
  unfold opResponse
  split
  · exact M.response_nonneg _ _ _ _ _
  · exact le_refl _

/-- An operator depends only on the copies it acts on. -/
theorem opResponse_congr {op : Op} (hv : Valid S op) {ν μ : Copy S → Λ}
    (h : ∀ c : Copy S, c.2.val ≠ 0 → op.copies[c.1.val]? = some c.2.val → ν c = μ c) : M.opResponse op ν = M.opResponse op μ := by
  unfold opResponse
  split
  · apply M.response_local
    intro s hs
    unfold seen
    have hl : s.val < op.copies.length := by rw [hv.copies_len]; exact s.2
    have hc := hv.copies_ok s hl
    rw [if_pos hs] at hc
    have hval : (Fin.ofNat (max (S.level s) 1 + 1) (op.copies.getD s 0)).val = op.copies[s.val] := by
      rw [Fin.val_ofNat, List.getD_eq_getElem _ _ hl]
      exact Nat.mod_eq_of_lt (by omega)
    apply h
    · show (Fin.ofNat (max (S.level s) 1 + 1) (op.copies.getD s 0)).val ≠ 0
      rw [hval]; omega
    · show op.copies[s.val]? = some (Fin.ofNat (max (S.level s) 1 + 1) (op.copies.getD s 0)).val
      rw [hval, List.getElem?_eq_getElem hl]
  · rfl

theorem group_sum (hO : O.Ok S) (hout : ∀ p, p < S.nParties → 1 ≤ S.outcomes p) {k : Nat × List Nat × Nat} (hk : k ∈ S.measKeys) (ν : Copy S → Λ) :
    ((blockOf S k).map fun r => M.rankResponse r ν).sum = 1 := by
  have hk' := (mem_measKeys S).1 hk
  have h0 : (⟨k.1, k.2.1, k.2.2, 0⟩ : Op) ∈ S.orthoGroup k :=
    List.mem_map.2 ⟨0, List.mem_range.2 (hout _ (by omega)), rfl⟩
  have hv0 := (mem_lexorder S).1 (mem_lex_of_group S hk h0)
  obtain ⟨x, y, hd, hx, hy⟩ := decode_some hO hv0
  unfold blockOf
  rw [List.map_map]
  have : ((S.orthoGroup k).map ((fun r => M.rankResponse r ν) ∘ fun op => S.lexorder.idxOf op)) =
      (List.range (S.outcomes (k.1 - 1))).map fun a => M.response (k.1 - 1) x y a (seen (⟨k.1, k.2.1, k.2.2, 0⟩ : Op) ν) := by
    unfold Scenario.orthoGroup
    rw [List.map_map]
    apply List.map_congr_left
    intro o ho
    have hm : (⟨k.1, k.2.1, k.2.2, o⟩ : Op) ∈ S.lexorder := mem_lex_of_group S hk (List.mem_map.2 ⟨o, ho, rfl⟩)
    have hi := List.idxOf_lt_length_iff.2 hm
    show M.rankResponse (S.lexorder.idxOf ⟨k.1, k.2.1, k.2.2, o⟩) ν = _
    rw [M.rankResponse_of (op := ⟨k.1, k.2.1, k.2.2, o⟩) (by rw [List.getElem?_eq_getElem hi, List.getElem_idxOf])]
    unfold opResponse
    simp only at hd ⊢
    rw [hd]
    rfl
  rw [this]
  exact M.response_sum (k.1 - 1) (by omega) _ hx _ hy _

theorem isEvent_nodup {n : Nat} {blocks : List (List Nat)} (hb : BlocksOk n blocks) {adj : Nat → Nat → Bool} {e : List Nat} (he : IsEvent blocks adj e) :
    e.Nodup ∧ ∀ r ∈ e, r < n := by
  constructor
  · have hin : ∀ r ∈ e, ∃ b ∈ blocks, r ∈ b := he.ops
    have := he.compat
    refine List.Pairwise.imp_of_mem ?_ this
    intro r s hr _ h hrs
    subst hrs
    obtain ⟨b, hbm, hrb⟩ := hin r hr
    obtain ⟨i, hi, rfl⟩ := List.getElem_of_mem hbm
    exact (h i i _ _ (List.getElem?_eq_getElem hi) (List.getElem?_eq_getElem hi) hrb hrb).1 rfl
  · intro r hr
    obtain ⟨b, hbm, hrb⟩ := he.ops r hr
    have : r ∈ blocks.flatten := List.mem_flatten.2 ⟨b, hbm, hrb⟩
    rw [hb.flat] at this
    exact List.mem_range.1 this

/-- Summing over the outcomes of one measurement gives the marginal. -/
theorem marginalises (hO : O.Ok S) (hout : ∀ p, p < S.nParties → 1 ≤ S.outcomes p) (hc : Nat → Bool) (force : Bool) (adj : Nat → Nat → Bool) :
    Marginalises S.lexorder.length (blocksOf (groupsOf S hc force)) adj M.vec := by
  intro b e hb he
  have hok := blocksOk_groupsOf S hout hc force
  have hne := hok.nonempty b hb
  obtain ⟨r0, hr0⟩ := List.exists_mem_of_ne_nil b hne
  have hev := isEvent_nodup hok (he r0 hr0)
  have he0 : e.Nodup := hev.1.of_cons
  have hlt : ∀ r ∈ e, r < S.lexorder.length := fun r hr => hev.2 r (List.mem_cons_of_mem _ hr)
  rw [vec_boolKey M he0 hlt]
  have h1 : (b.map fun r => M.vec (boolKey S.lexorder.length (r :: e))) = b.map fun r => M.event (r :: e) := by
    apply List.map_congr_left
    intro r hr
    have := isEvent_nodup hok (he r hr)
    exact vec_boolKey M this.1 this.2
  rw [h1]
  unfold event
  rw [expect_sum]
  apply expect_congr
  intro ν
  have h2 : (b.map fun r => ((r :: e).map fun r => M.rankResponse r ν).prod) = b.map fun r => M.rankResponse r ν * (e.map fun r => M.rankResponse r ν).prod := by
    simp
  rw [h2, List.sum_map_mul_right]
  rw [groupsOf_eq, blocksOf, List.map_map] at hb
  obtain ⟨k, hk, rfl⟩ := List.mem_map.1 hb
  rw [show ((fun g : Bool × List Nat => g.2) ∘ fun k => (effChildren hc force (k.1 - 1), blockOf S k)) k = blockOf S k from rfl,
    M.group_sum hO hout hk, one_mul]

theorem rankResponse_nonneg [IsStrictOrderedRing F] (r : Nat) (ν : Copy S → Λ) : 0 ≤ M.rankResponse r ν := by
  unfold rankResponse
  split
  · exact M.opResponse_nonneg _ _
  · exact zero_le_one

theorem event_nonneg [IsStrictOrderedRing F] (e : List Nat) : 0 ≤ M.event e := by
  refine expect_nonneg _ (fun (c : Copy S) v => M.source_nonneg c.1 v) fun ν => ?_
  apply List.prod_nonneg
  intro x hx
  obtain ⟨r, _, rfl⟩ := List.mem_map.1 hx
  exact M.rankResponse_nonneg r ν

theorem rankResponse_le_one [IsStrictOrderedRing F] (hO : O.Ok S) (r : Nat) (ν : Copy S → Λ) : M.rankResponse r ν ≤ 1 := by
  unfold rankResponse
  split
  · rename_i op hop
    have hv := (mem_lexorder S).1 (List.mem_of_getElem? hop)
    obtain ⟨x, y, hd, hx, hy⟩ := decode_some hO hv
    unfold opResponse
    rw [hd]
    have h1 := hv.party_pos
    have h2 := hv.party_le
    have hs := M.response_sum (op.party - 1) (by omega) x hx y hy (seen op ν)
    show M.response (op.party - 1) x y op.outcome (seen op ν) ≤ 1
    rw [← hs]
    apply List.single_le_sum
    · intro z hz
      obtain ⟨a, _, rfl⟩ := List.mem_map.1 hz
      exact M.response_nonneg _ _ _ _ _
    · exact List.mem_map.2 ⟨op.outcome, List.mem_range.2 hv.outcome_lt, rfl⟩
  · exact le_refl _

theorem event_le_one [IsStrictOrderedRing F] (hO : O.Ok S) (e : List Nat) : M.event e ≤ 1 := by
  have h1 : expect (fun c : Copy S => M.source c.1) (fun _ : Copy S → Λ => (1 : F)) = 1 := expect_one _ M.weight_sum
  rw [← h1]
  refine expect_mono _ (fun (c : Copy S) v => M.source_nonneg c.1 v) fun ν => ?_
  induction e with
  | nil => simp
  | cons r e ih =>
    rw [List.map_cons, List.prod_cons]
    calc M.rankResponse r ν * _ ≤ 1 * 1 := mul_le_mul (M.rankResponse_le_one hO r ν) ih (List.prod_nonneg (by
            intro x hx
            obtain ⟨r, _, rfl⟩ := List.mem_map.1 hx
            exact M.rankResponse_nonneg r ν)) zero_le_one
      _ = 1 := one_mul 1

/-- The self-map of the copies induced by a relabelling. -/
def relabelCopy {g : Nat → Nat → Nat} (hg : Relabelling S g) (c : Copy S) : Copy S :=
  ⟨c.1, ⟨g c.1 c.2, by
    have h := hg c.1 c.1.2
    have hc := c.2.2
    rcases Nat.eq_zero_or_pos c.2.val with h0 | h0
    · rw [h0, h.1]; omega
    · have := (h.2.1 c.2 h0 (by omega)).2
      omega⟩⟩

theorem relabelCopy_inj {g : Nat → Nat → Nat} (hg : Relabelling S g) : Function.Injective (relabelCopy hg) := by
  rintro ⟨s, c⟩ ⟨t, d⟩ h
  have h1 : s = t := congrArg (·.1) h
  subst h1
  have h2 : g s c = g s d := by
    have := (Sigma.mk.inj_iff.1 h).2
    exact congrArg Fin.val (eq_of_heq this)
  have hi := Relabelling.inj hg s.2 (c := c.val) (d := d.val) (by have := c.2; omega) (by have := d.2; omega) h2
  have : c = d := Fin.ext hi
  rw [this]

theorem opResponse_act {g : Nat → Nat → Nat} (hg : Relabelling S g) {op : Op} (hv : Valid S op) (ν : Copy S → Λ) :
    M.opResponse (Verif.Symmetry.act g op) ν = M.opResponse op (ν ∘ relabelCopy hg) := by
  have hs : seen (Verif.Symmetry.act g op) ν = seen op (ν ∘ relabelCopy hg) := by
    funext s
    unfold seen
    show ν _ = ν _
    congr 1
    unfold relabelCopy
    have hl : s.val < op.copies.length := by rw [hv.copies_len]; exact s.2
    have hle := (hv.copy_le (List.getElem?_eq_getElem hl)).2
    have hr := hg s s.2
    have hle' : g s op.copies[s.val] ≤ max (S.level s) 1 := by
      rcases Nat.eq_zero_or_pos op.copies[s.val] with h0 | h0
      · rw [h0, hr.1]; omega
      · exact (hr.2.1 _ h0 hle).2
    have e1 : (Verif.Symmetry.act g op).copies.getD s 0 = g s op.copies[s.val] := by
      rw [List.getD_eq_getElem _ _ (by simpa [Verif.Symmetry.act] using hl)]
      simp [Verif.Symmetry.act]
    rw [e1]
    congr 1
    apply Fin.ext
    show g s op.copies[s.val] % (max (S.level s) 1 + 1) = g s (op.copies.getD s 0 % (max (S.level s) 1 + 1))
    rw [Nat.mod_eq_of_lt (by omega), List.getD_eq_getElem _ _ hl, Nat.mod_eq_of_lt (by omega)]
  unfold opResponse
  rw [hs]
  rfl

/-- Relabelling the copies does not change probabilities. -/
theorem event_act {g : Nat → Nat → Nat} (hg : Relabelling S g) {e : List Nat} (he : ∀ r ∈ e, r < S.lexorder.length) :
    M.event (e.map fun k => (inducedRow S g).getD k 0) = M.event e := by
  unfold event
  have h := expect_restrict (relabelCopy hg) (relabelCopy_inj hg) (fun c : Copy S => M.source c.1) M.weight_sum
    (fun ν => (e.map fun r => M.rankResponse r ν).prod)
  have hw : (fun j : Copy S => M.source (relabelCopy hg j).1) = fun c => M.source c.1 := rfl
  rw [hw] at h
  rw [← h]
  apply expect_congr
  intro ν
  rw [List.map_map]
  congr 1
  apply List.map_congr_left
  intro r hr
  have hlt := he r hr
  have hv := Verif.Symmetry.lex_valid S hlt
  have hrow : (inducedRow S g).getD r 0 = S.lexorder.idxOf (Verif.Symmetry.act g S.lexorder[r]) := by
    have := row_act S (g := g) (List.getElem_mem hlt)
    rwa [List.Nodup.idxOf_getElem (lexorder_nodup S)] at this
  have hm := (mem_lexorder S).2 (Verif.Symmetry.act_valid S hg hv)
  have hi := List.idxOf_lt_length_iff.2 hm
  show M.rankResponse ((inducedRow S g).getD r 0) ν = M.rankResponse r (ν ∘ relabelCopy hg)
  rw [hrow, M.rankResponse_of (op := Verif.Symmetry.act g S.lexorder[r]) (by rw [List.getElem?_eq_getElem hi, List.getElem_idxOf]),
    M.rankResponse_of (List.getElem?_eq_getElem hlt), M.opResponse_act hg hv]

theorem vec_invariant : Invariant S.lexorder.length (lexorderSymmetries S) M.vec := by
  rintro v w hv ⟨r, hr, rfl⟩
  obtain ⟨g, hg, rfl⟩ := (Verif.Symmetry.mem_symmetries S).1 hr
  have hperm := (symmetries_isGroup S).perm _ hr
  show M.event (flatnonzero v) = M.event (flatnonzero (image v (inducedRow S g)))
  have hlen : (image v (inducedRow S g)).length = S.lexorder.length := by rw [image_length, hperm.length_eq, List.length_range]
  rw [← M.event_act hg (e := flatnonzero (image v (inducedRow S g)))]
  · apply event_perm
    have hnd : (inducedRow S g).Nodup := hperm.nodup_iff.2 List.nodup_range
    have hmem : ∀ k, k ∈ flatnonzero (image v (inducedRow S g)) ↔ k < S.lexorder.length ∧ v.getD ((inducedRow S g).getD k 0) false = true := by
      intro k
      unfold flatnonzero
      rw [List.mem_filter, List.mem_range, hlen]
      apply and_congr_right
      intro hk
      have hk' : k < (inducedRow S g).length := by rw [hperm.length_eq, List.length_range]; exact hk
      unfold image
      rw [List.getD_eq_getElem _ _ (by simpa using hk'), List.getElem_map, List.getD_eq_getElem (inducedRow S g) _ hk']
    rw [List.perm_ext_iff_of_nodup ((flatnonzero_sorted _).imp Nat.ne_of_lt)]
    · intro a
      rw [List.mem_map]
      have ha : a ∈ flatnonzero v ↔ a < S.lexorder.length ∧ v.getD a false = true := by
        unfold flatnonzero
        rw [List.mem_filter, List.mem_range, hv]
      rw [ha]
      constructor
      · rintro ⟨h1, h2⟩
        have : a ∈ inducedRow S g := hperm.mem_iff.2 (List.mem_range.2 h1)
        obtain ⟨k, hk, rfl⟩ := List.getElem_of_mem this
        refine ⟨k, (hmem k).2 ⟨by rw [hperm.length_eq, List.length_range] at hk; exact hk, ?_⟩, List.getD_eq_getElem _ _ hk⟩
        rw [List.getD_eq_getElem _ _ hk]; exact h2
      · rintro ⟨k, hk, rfl⟩
        obtain ⟨h1, h2⟩ := (hmem k).1 hk
        refine ⟨?_, h2⟩
        have hk' : k < (inducedRow S g).length := by rw [hperm.length_eq, List.length_range]; exact h1
        rw [List.getD_eq_getElem _ _ hk']
        exact List.mem_range.1 (hperm.mem_iff.1 (List.getElem_mem hk'))
    · refine List.Nodup.map_on ?_ ((flatnonzero_sorted _).imp Nat.ne_of_lt)
      intro x hx y hy hxy
      obtain ⟨h1, _⟩ := (hmem x).1 hx
      obtain ⟨h2, _⟩ := (hmem y).1 hy
      have hx' : x < (inducedRow S g).length := by rw [hperm.length_eq, List.length_range]; exact h1
      have hy' : y < (inducedRow S g).length := by rw [hperm.length_eq, List.length_range]; exact h2
      rw [List.getD_eq_getElem _ _ hx', List.getD_eq_getElem _ _ hy'] at hxy
      exact (hnd.getElem_inj_iff).1 hxy
  · intro k hk
    unfold flatnonzero at hk
    rw [List.mem_filter, List.mem_range, hlen] at hk
    exact hk.1

end ClassicalModel
end Verif.EndToEnd
