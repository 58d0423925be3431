import Verif.SdpEnd.Spec
import Verif.SdpRepr.Lemmas
import Verif.SymMM.ColumnsProps
import Verif.Normalization.Props
import Mathlib.Algebra.BigOperators.Group.List.Lemmas
/-!
Representatives have the value of the word they represent, whatever has been stored in the dictionaries before.
-/
namespace Verif.SdpEnd
open Verif.Common Verif.Canon Verif.Canon.Spec Verif.Scenario Verif.Moment Verif.MomentMatrix Verif.SdpRepr Verif.SymMM Verif.Normalization
open Verif.Symmetry (img sdpSymmetries)
open Verif.EndToEnd (Input)

variable {I : Input} {R : Type} [Ring R] [StarRing R] [Algebra ℝ R] (M : InflatedModel I R)

theorem nOps_pos (I : Input) : 0 < nOps I := Nat.succ_pos _

theorem operatorList (I : Input) : OperatorList (nOps I) (notcomm I) (orthomat I) (sdpMeas I.scenario) := scenario_operatorList I.scenario I.D.tbl I.anyNonclassical

theorem symData (I : Input) : SymData (nOps I) (notcomm I) (orthomat I) (symmetries I) := scenario_symData I.scenario I.D I.anyNonclassical

theorem notcomm_out {a b : Nat} (h : nOps I ≤ a ∨ nOps I ≤ b) : notcomm I a b = false := by
  have hn := nOps_pos I
  unfold nOps at h hn
  unfold notcomm padMat Scenario.notcomm
  split
  · rw [commutationMatrix_out (by omega)]; simp
  · simp

theorem allCommute_iff (I : Input) : allCommute I = true ↔ ∀ a b, notcomm I a b = false := by
  unfold allCommute
  simp only [List.all_eq_true, List.mem_range, Bool.not_eq_true']
  constructor
  · intro h a b
    by_cases ha : a < nOps I
    · by_cases hb : b < nOps I
      · exact h a ha b hb
      · exact notcomm_out (.inr (by omega))
    · exact notcomm_out (.inl (by omega))
  · intro h a _ b _
    exact h a b

theorem inRange_append {u v : List Nat} : InRange I (u ++ v) ↔ InRange I u ∧ InRange I v := by
  unfold InRange
  simp only [List.mem_append]
  constructor
  · intro h; exact ⟨fun x hx => h x (.inl hx), fun x hx => h x (.inr hx)⟩
  · rintro ⟨h1, h2⟩ x (hx | hx)
    · exact h1 x hx
    · exact h2 x hx

theorem inRange_reverse {u : List Nat} : InRange I u.reverse ↔ InRange I u := by
  unfold InRange; simp

theorem orthomat_symm (a b : Nat) (ha : a < nOps I) (hb : b < nOps I) : orthomat I a b = orthomat I b a := by
  have H := operatorList I
  rw [Bool.eq_iff_iff, H.ortho_iff a b ha hb, H.ortho_iff b a hb ha]
  constructor
  · rintro (h | h | ⟨h1, h2⟩)
    · exact .inr (.inl h)
    · exact .inl h
    · exact .inr (.inr ⟨fun e => h1 e.symm, h2.symm⟩)
  · rintro (h | h | ⟨h1, h2⟩)
    · exact .inr (.inl h)
    · exact .inl h
    · exact .inr (.inr ⟨fun e => h1 e.symm, h2.symm⟩)

theorem opEq_flip {u v : List Nat} (h : OpEq (nOps I) (fun a b => notcomm I a b = false) (fun a b => orthomat I b a = true) u v) :
    OpEq (nOps I) (fun a b => notcomm I a b = false) (fun a b => orthomat I a b = true) u v := by
  induction h with
  | refl w => exact .refl w
  | symm _ ih => exact ih.symm
  | trans _ _ ih1 ih2 => exact ih1.trans ih2
  | swap u a b v hab => exact .swap u a b v hab
  | idem u a v => exact .idem u a v
  | zero u a b v hr hab =>
    refine .zero u a b v hr ?_
    show orthomat I a b = true
    rw [orthomat_symm a b (hr a (by simp)) (hr b (by simp))]
    exact hab

/-- A word and its canonical form are equal as operators. -/
theorem canonical_opEq (flag : Bool) {w : List Nat} (hw : InRange I w) :
    OpEq (nOps I) (fun a b => notcomm I a b = false) (fun a b => orthomat I a b = true) w (toCanonical (notcomm I) (orthomat I) (allCommute I) flag w) := by
  rw [canonC_eq (fun h => (allCommute_iff I).1 h)]
  cases flag with
  | false => exact opEq_flip (toCanonical_opEq (notcomm I) (orthomat I) w hw)
  | true =>
    have H := operatorList I
    exact OpEq.of_commEq (C04_canonical_is_lex_least (notcomm I) (orthomat I) H.nc_symm H.nc_diag w).1

/-- `v` has the value of `w`. -/
def Rep (w v : List Nat) : Prop := InRange I w → InRange I v ∧ M.φ (op M.ρ v) = M.φ (op M.ρ w)

theorem Rep.refl (w : List Nat) : Rep M w w := fun h => ⟨h, rfl⟩

theorem Rep.trans {u v w : List Nat} (h1 : Rep M u v) (h2 : Rep M v w) : Rep M u w := fun h =>
  ⟨(h2 (h1 h).1).1, (h2 (h1 h).1).2.trans (h1 h).2⟩

theorem Rep.of_opEq {u v : List Nat} (h : OpEq (nOps I) (fun a b => notcomm I a b = false) (fun a b => orthomat I a b = true) u v) : Rep M u v := fun hu =>
  ⟨(opEq_range (nOps_pos I) h).1 hu, by rw [opEq_op (nOps_pos I) M.operators h hu]⟩

theorem rep_canonical (flag : Bool) (w : List Nat) : Rep M w (toCanonical (notcomm I) (orthomat I) (allCommute I) flag w) := fun hw =>
  Rep.of_opEq M (canonical_opEq flag hw) hw

theorem rep_image {r : List Nat} (hr : r ∈ symmetries I) (w : List Nat) : Rep M w (mapW r w) := fun hw =>
  ⟨fun x hx => by
    obtain ⟨y, hy, rfl⟩ := List.mem_map.1 hx
    exact (symData I).lt hr (hw y hy), M.symmetric r hr w hw⟩

/-- All entries of a dictionary are sound. -/
def MemoSound (c : Memo) : Prop := ∀ k v, c.lookup k = some v → Rep M k v

theorem canonMemo_sound {c : Memo} (hc : MemoSound M c) (flag : Bool) (w : List Nat) :
    MemoSound M (canonMemo (notcomm I) (orthomat I) (allCommute I) c flag w).1 ∧ Rep M w (canonMemo (notcomm I) (orthomat I) (allCommute I) c flag w).2 := by
  unfold canonMemo
  split
  · rename_i r hr
    exact ⟨hc, hc w r hr⟩
  · split
    · refine ⟨?_, Rep.refl M w⟩
      intro k v hk
      rcases lookup_cons_some hk with ⟨rfl, rfl⟩ | hk
      · exact Rep.refl M _
      · exact hc k v hk
    · dsimp only
      refine ⟨?_, rep_canonical M flag w⟩
      intro k v hk
      rcases lookup_cons_some hk with ⟨rfl, rfl⟩ | hk
      · exact Rep.refl M _
      · rcases lookup_cons_some hk with ⟨rfl, rfl⟩ | hk
        · exact rep_canonical M flag _
        · exact hc k v hk

theorem canonAll_sound (l : List (List Nat)) {c : Memo} (hc : MemoSound M c) :
    MemoSound M (canonAll (notcomm I) (orthomat I) (allCommute I) c l).1 ∧
      List.Forall₂ (Rep M) l (canonAll (notcomm I) (orthomat I) (allCommute I) c l).2 := by
  induction l generalizing c with
  | nil => exact ⟨hc, .nil⟩
  | cons v t ih =>
    obtain ⟨h1, h2⟩ := canonMemo_sound M hc true v
    obtain ⟨h3, h4⟩ := ih h1
    exact ⟨h3, .cons h2 h4⟩

/-- Both dictionaries are sound. -/
structure MemSound (m : Mem) : Prop where
  canon : MemoSound M m.canon
  sym : MemoSound M m.sym

theorem reprMemo_sound {m : Mem} (hm : MemSound M m) (flag : Bool) {w : List Nat} (hw : InRange I w) :
    MemSound M (reprMemo (notcomm I) (orthomat I) (allCommute I) (symmetries I) m flag w).1 ∧
      Rep M w (reprMemo (notcomm I) (orthomat I) (allCommute I) (symmetries I) m flag w).2 := by
  unfold reprMemo
  split
  · refine ⟨⟨hm.canon, ?_⟩, Rep.refl M w⟩
    intro k v hk
    rcases lookup_cons_some hk with ⟨rfl, rfl⟩ | hk
    · exact Rep.refl M _
    · exact hm.sym k v hk
  · split
    · rename_i r hr
      exact ⟨hm, hm.sym w r hr⟩
    · dsimp only
      obtain ⟨h1, h2⟩ := canonMemo_sound M hm.canon flag w
      split
      · rename_i r hr
        have h3 : Rep M w r := h2.trans M (hm.sym _ r hr)
        refine ⟨⟨h1, ?_⟩, h3⟩
        intro k v hk
        rcases lookup_cons_some hk with ⟨rfl, rfl⟩ | hk
        · exact h3
        · exact hm.sym k v hk
      · obtain ⟨h3, h4⟩ := canonAll_sound M (variants (symmetries I) w) h1
        have hv : ∀ k ∈ (canonAll (notcomm I) (orthomat I) (allCommute I) (canonMemo (notcomm I) (orthomat I) (allCommute I) m.canon flag w).1 (variants (symmetries I) w)).2,
            InRange I k ∧ M.φ (op M.ρ k) = M.φ (op M.ρ w) := by
          intro k hk
          obtain ⟨i, hi, rfl⟩ := List.getElem_of_mem hk
          have hf := List.forall₂_iff_get.1 h4
          have hi' : i < (variants (symmetries I) w).length := by rw [hf.1]; exact hi
          have hrel := hf.2 i hi' hi
          obtain ⟨r, hr, e⟩ := mem_variants.1 (List.getElem_mem hi')
          have him := rep_image M hr w hw
          rw [← e] at him
          obtain ⟨q1, q2⟩ := hrel him.1
          exact ⟨q1, q2.trans him.2⟩
        have hne : (canonAll (notcomm I) (orthomat I) (allCommute I) (canonMemo (notcomm I) (orthomat I) (allCommute I) m.canon flag w).1 (variants (symmetries I) w)).2 ≠ [] := by
          intro e
          have hl := h4.length_eq
          rw [e] at hl
          have hg : List.range (nOps I) ∈ symmetries I := List.mem_of_mem_head? (symData I).group.ident
          have : mapW (List.range (nOps I)) w ∈ variants (symmetries I) w := mem_variants.2 ⟨_, hg, rfl⟩
          rw [List.eq_nil_of_length_eq_zero (l := variants (symmetries I) w) (by simpa using hl)] at this
          simp at this
        have hrep := hv _ (minTuple_spec _ hne).1
        refine ⟨⟨h3, ?_⟩, fun _ => hrep⟩
        intro k v hk
        rcases lookup_cons_some hk with ⟨rfl, rfl⟩ | hk
        · exact fun _ => hrep
        · rcases lookup_append_map hk with ⟨hk', rfl⟩ | hk'
          · exact fun _ => ⟨hrep.1, hrep.2.trans (hv k hk').2.symm⟩
          · exact hm.sym k v hk'

theorem reached_sound {m : Mem} (h : Reached I m) : MemSound M m := by
  obtain ⟨history, hr, rfl⟩ := h
  unfold after
  have h0 : MemSound M ⟨[], []⟩ := ⟨by intro k v h; simp at h, by intro k v h; simp at h⟩
  generalize (⟨[], []⟩ : Mem) = m0 at h0
  induction history generalizing m0 with
  | nil => exact h0
  | cons c l ih =>
    rw [List.foldl_cons]
    apply ih (fun c hc => hr c (List.mem_cons_of_mem _ hc))
    have := hr c (by simp)
    cases c with
    | canon flag w => exact ⟨(canonMemo_sound M h0.canon flag w).1, h0.sym⟩
    | repr flag w => exact (reprMemo_sound M h0 flag this).1

/-- The atom of a word has the value of the word. -/
theorem atomOf_sound {w : List Nat} {a : Atom} (h : AtomOf I w a) : Rep M w a := by
  induction h with
  | direct h => exact fun hw => (reprMemo_sound M (reached_sound M h) false hw).2 hw
  | stored h _ ih => exact fun hw => ((reprMemo_sound M (reached_sound M h) false hw).2.trans M ih) hw

theorem op_reverse (w : List Nat) : op M.ρ w.reverse = star (op M.ρ w) := (Positivity.star_prod M.operators.proj w).symm

/-- Commuting letters may be permuted. -/
theorem op_perm {u v : List Nat} (hu : InRange I u) (hc : ∀ a ∈ u, ∀ b ∈ u, notcomm I a b = false) (h : u.Perm v) : op M.ρ u = op M.ρ v := by
  unfold op
  refine (h.map M.ρ).prod_eq' ?_
  rw [List.pairwise_map]
  refine List.pairwise_of_forall_mem_list ?_
  intro a ha b hb
  exact M.operators.comm a b (hu a ha) (hu b hb) (hc a ha b hb)

/-- The adjoint of an atom has the conjugate value. -/
theorem dagger_value {ch : Choice} (hch : ch.Computed I) (a : Atom) : M.val (ch.dagger a) = (starRingEnd ℂ) (M.val a) := by
  unfold InflatedModel.val
  by_cases ha : InRange I a
  · obtain ⟨m, hm, e⟩ := hch.dagger a ha
    rw [e, if_pos ha, ← M.hermitian, ← op_reverse]
    unfold conjugate
    split
    · rename_i hall
      have hc : ∀ x ∈ a, ∀ y ∈ a, notcomm I x y = false := by
        unfold allCommuting at hall
        rw [Bool.or_eq_true] at hall
        rcases hall with h | h
        · intro x _ y _; exact (allCommute_iff I).1 h x y
        · simp only [Bool.not_eq_true', List.any_eq_false, Bool.not_eq_true] at h
          exact fun x hx y hy => h x hx y hy
      show M.φ (op M.ρ a) = _
      rw [op_perm M ha hc (List.reverse_perm a).symm]
    · obtain ⟨q1, q2⟩ := (reprMemo_sound M (reached_sound M hm) true (inRange_reverse.2 ha)).2 (inRange_reverse.2 ha)
      rw [if_pos q1, q2]
  · rw [hch.other a ha, if_neg ha]
    simp

theorem val_nil : M.val [] = 1 := by
  unfold InflatedModel.val
  rw [if_pos (by intro x hx; simp at hx)]
  simp [op, M.unit]

theorem val_zero {a : Atom} (h : isZero a = true) : M.val a = 0 := by
  unfold InflatedModel.val
  split
  · have : op M.ρ a = 0 := by
      unfold op
      apply List.prod_eq_zero
      rw [isZero, List.contains_iff_mem] at h
      exact List.mem_map.2 ⟨0, h, M.operators.zero⟩
    rw [this, map_zero]
  · rfl

end Verif.SdpEnd
