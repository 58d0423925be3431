import Verif.SdpEnd.Raise
import Verif.Positivity.HermitianProps
/-!
When the default lower bounds are true: moments whose factors equal their own adjoint by commutations only are non-negative in every model (C46). This is the case for all the moments that
the code finds hermitian when the inflation has no symmetries, or when all operators commute.
-/
namespace Verif.SdpEnd
open Verif.Common Verif.Canon Verif.Canon.Spec Verif.Scenario Verif.Moment Verif.MomentMatrix Verif.SdpRepr Verif.SymMM Verif.Normalization
open Verif.Symmetry (img sdpSymmetries)
open Verif.EndToEnd (Input)
open Verif.State (Dict Mon)

variable {I : Input} {R : Type} [Ring R] [StarRing R] [Algebra ℝ R]

/-- The word equals its adjoint (the reversed word) by exchanges of commuting neighbours. -/
def SelfAdjoint (I : Input) (a : Atom) : Prop := CommEq (fun x y => notcomm I x y = false) a a.reverse

/-- All moments with a default lower bound are products of self-adjoint words. -/
def BoundsSafe (I : Input) (B : Built) : Prop := ∀ m ∈ B.env.hermitian, ∀ a ∈ m, InRange I a → SelfAdjoint I a

theorem commEq_op (M : InflatedModel I R) {u v : List Nat} (h : CommEq (fun x y => notcomm I x y = false) u v) (hu : InRange I u) : op M.ρ u = op M.ρ v := by
  refine Canon.prod_commEq (comm := fun a b => notcomm I a b = false) M.ρ h ?_
  intro a ha b hb hc
  exact M.operators.comm a b (hu a ha) (hu b hb) hc

/-- A self-adjoint word has a non-negative value. -/
theorem selfAdjoint_value (M : InflatedModel I R) {a : Atom} (h : InRange I a → SelfAdjoint I a) : 0 ≤ (M.val a).re ∧ (M.val a).im = 0 := by
  unfold InflatedModel.val
  split
  · rename_i ha
    have h := h ha
    constructor
    · have H := operatorList I
      exact Positivity.C46_selfadjoint_nonneg H.nc_symm H.nc_diag M.ρ (fun n => M.operators.proj n) (fun x => (M.φ x).re) M.positive a
        (fun x hx y hy hc => M.operators.comm x y (ha x hx) (ha y hy) hc) h
    · have h1 : M.φ (op M.ρ a) = (starRingEnd ℂ) (M.φ (op M.ρ a)) := by
        conv_lhs => rw [commEq_op M h ha, op_reverse, M.hermitian]
      exact Complex.conj_eq_iff_im.1 h1.symm
  · simp

/-- **C46 for whole problems.** The moments with a default lower bound are non-negative in every model, if they are products of self-adjoint words. -/
theorem C46_moments_nonneg (M : InflatedModel I R) {B : Built} (hs : BoundsSafe I B) : ∀ m ∈ B.env.hermitian, 0 ≤ M.value m := by
  intro m hm
  have h : ∀ l : List Atom, (∀ a ∈ l, InRange I a → SelfAdjoint I a) → 0 ≤ ((l.map M.val).prod).re ∧ ((l.map M.val).prod).im = 0 := by
    intro l
    induction l with
    | nil => simp
    | cons a l ih =>
      intro hl
      obtain ⟨h1, h2⟩ := selfAdjoint_value M (hl a (by simp))
      obtain ⟨h3, h4⟩ := ih fun b hb => hl b (List.mem_cons_of_mem _ hb)
      rw [List.map_cons, List.prod_cons, Complex.mul_re, Complex.mul_im, h2, h4]
      exact ⟨by simpa using mul_nonneg h1 h3, by simp⟩
  exact (h m (hs m hm)).1

/-- A word of commuting letters is self-adjoint. -/
theorem selfAdjoint_of_comm {a : Atom} (h : ∀ x ∈ a, ∀ y ∈ a, notcomm I x y = false) : SelfAdjoint I a := CommEq.of_perm (List.reverse_perm a).symm h

/-- When all operators commute, all moments are products of self-adjoint words. -/
theorem safe_of_allCommute (h : allCommute I = true) (B : Built) : BoundsSafe I B := fun _ _ _ _ _ => selfAdjoint_of_comm fun x _ y _ => (allCommute_iff I).1 h x y

/-! ### without symmetries -/

/-- `v` has been obtained from `u` by exchanges, or is shorter, or is the zero word. -/
def Red (I : Input) (u v : List Nat) : Prop := InRange I u → InRange I v ∧ (CommEq (fun x y => notcomm I x y = false) u v ∨ v = [0] ∧ 1 ≤ u.length ∨ v.length < u.length)

theorem Red.refl (w : List Nat) : Red I w w := fun h => ⟨h, .inl (.refl w)⟩

theorem commEq_length {u v : List Nat} {c : Nat → Nat → Prop} (h : CommEq c u v) : u.length = v.length := h.perm.length_eq

theorem Red.trans {u v w : List Nat} (h1 : Red I u v) (h2 : Red I v w) : Red I u w := by
  intro hu
  obtain ⟨hv, h1⟩ := h1 hu
  obtain ⟨hw, h2⟩ := h2 hv
  refine ⟨hw, ?_⟩
  rcases h1 with h1 | ⟨rfl, hl⟩ | h1
  · have := commEq_length h1
    rcases h2 with h2 | ⟨h2, h3⟩ | h2
    · exact .inl (h1.trans h2)
    · exact .inr (.inl ⟨h2, by omega⟩)
    · exact .inr (.inr (by omega))
  · rcases h2 with h2 | ⟨h2, _⟩ | h2
    · exact .inr (.inl ⟨List.perm_singleton.1 h2.perm.symm, hl⟩)
    · exact .inr (.inl ⟨h2, hl⟩)
    · exact .inr (.inr (by simp at h2; simp [h2]; omega))
  · rcases h2 with h2 | ⟨rfl, h2⟩ | h2
    · have := commEq_length h2
      exact .inr (.inr (by omega))
    · exact .inr (.inr (by simp; omega))
    · exact .inr (.inr (by omega))

theorem removeSquares_cases (w : List Nat) : removeSquares w = w ∨ (removeSquares w).length < w.length := by
  have h := (removeSquares_sublist w).1
  rcases Nat.lt_or_ge (removeSquares w).length w.length with h' | h'
  · exact .inr h'
  · exact .inl (h.eq_of_length_le h')

theorem red_canonical (flag : Bool) (w : List Nat) : Red I w (toCanonical (notcomm I) (orthomat I) (allCommute I) flag w) := by
  intro hw
  have hr := (opEq_range (nOps_pos I) (canonical_opEq (I := I) flag hw)).1 hw
  refine ⟨hr, ?_⟩
  rw [canonC_eq (fun h => (allCommute_iff I).1 h)]
  unfold toCanonical
  split
  · exact .inl (.refl w)
  · rename_i hl
    simp only [Bool.false_eq_true, if_false]
    have h1 : CommEq (fun x y => notcomm I x y = false) w (lexmonToCanonical (notcomm I) w) := canon_sound (notcomm I) w
    split
    · exact .inl h1
    · split
      · exact .inr (.inl ⟨rfl, by omega⟩)
      · rcases removeSquares_cases (lexmonToCanonical (notcomm I) w) with e | e
        · rw [e]; exact .inl h1
        · have := commEq_length h1
          exact .inr (.inr (by omega))

/-- All entries of a dictionary are of that kind. -/
def MemoRed (I : Input) (c : Memo) : Prop := ∀ k v, c.lookup k = some v → Red I k v

theorem canonMemo_red {c : Memo} (hc : MemoRed I c) (flag : Bool) (w : List Nat) :
    MemoRed I (canonMemo (notcomm I) (orthomat I) (allCommute I) c flag w).1 ∧ Red I w (canonMemo (notcomm I) (orthomat I) (allCommute I) c flag w).2 := by
  unfold canonMemo
  split
  · rename_i r hr
    exact ⟨hc, hc w r hr⟩
  · split
    · refine ⟨?_, Red.refl w⟩
      intro k v hk
      rcases lookup_cons_some hk with ⟨rfl, rfl⟩ | hk
      · exact Red.refl _
      · exact hc k v hk
    · dsimp only
      refine ⟨?_, red_canonical flag w⟩
      intro k v hk
      rcases lookup_cons_some hk with ⟨rfl, rfl⟩ | hk
      · exact Red.refl _
      · rcases lookup_cons_some hk with ⟨rfl, rfl⟩ | hk
        · exact red_canonical flag _
        · exact hc k v hk

structure MemRed (I : Input) (m : Mem) : Prop where
  canon : MemoRed I m.canon
  sym : MemoRed I m.sym

theorem variants_identity (hI : symmetries I = [List.range (nOps I)]) {w : List Nat} (hw : InRange I w) : variants (symmetries I) w = [w] := by
  have e : (w.map fun x => (List.range (nOps I)).getD x x) = w := by
    conv_rhs => rw [← List.map_id w]
    apply List.map_congr_left
    intro x hx
    rw [List.getD_eq_getElem _ _ (by simpa using hw x hx)]
    simp
  unfold variants
  rw [hI, List.map_singleton, e]
  rfl

theorem reprMemo_red (hI : symmetries I = [List.range (nOps I)]) {m : Mem} (hm : MemRed I m) (flag : Bool) {w : List Nat} (hw : InRange I w) :
    MemRed I (reprMemo (notcomm I) (orthomat I) (allCommute I) (symmetries I) m flag w).1 ∧
      Red I w (reprMemo (notcomm I) (orthomat I) (allCommute I) (symmetries I) m flag w).2 := by
  unfold reprMemo
  split
  · refine ⟨⟨hm.canon, ?_⟩, Red.refl w⟩
    intro k v hk
    rcases lookup_cons_some hk with ⟨rfl, rfl⟩ | hk
    · exact Red.refl _
    · exact hm.sym k v hk
  · split
    · rename_i r hr
      exact ⟨hm, hm.sym w r hr⟩
    · dsimp only
      obtain ⟨h1, h2⟩ := canonMemo_red hm.canon flag w
      split
      · rename_i r hr
        have h3 : Red I w r := h2.trans (hm.sym _ r hr)
        refine ⟨⟨h1, ?_⟩, h3⟩
        intro k v hk
        rcases lookup_cons_some hk with ⟨rfl, rfl⟩ | hk
        · exact h3
        · exact hm.sym k v hk
      · rw [variants_identity hI hw]
        obtain ⟨h3, h4⟩ := canonMemo_red h1 true w
        simp only [canonAll, minTuple]
        refine ⟨⟨h3, ?_⟩, h4⟩
        intro k v hk
        rcases lookup_cons_some hk with ⟨rfl, rfl⟩ | hk
        · exact h4
        · rcases lookup_append_map hk with ⟨hk', rfl⟩ | hk'
          · rw [List.mem_singleton] at hk'
            rw [hk']
            exact Red.refl _
          · exact hm.sym k v hk'

theorem reached_red (hI : symmetries I = [List.range (nOps I)]) {m : Mem} (h : Reached I m) : MemRed I m := by
  obtain ⟨history, hr, rfl⟩ := h
  unfold after
  have h0 : MemRed I ⟨[], []⟩ := ⟨by intro k v h; simp at h, by intro k v h; simp at h⟩
  generalize (⟨[], []⟩ : Mem) = m0 at h0
  induction history generalizing m0 with
  | nil => exact h0
  | cons c l ih =>
    rw [List.foldl_cons]
    apply ih (fun c hc => hr c (List.mem_cons_of_mem _ hc))
    have := hr c (by simp)
    cases c with
    | canon flag w => exact ⟨(canonMemo_red h0.canon flag w).1, h0.sym⟩
    | repr flag w => exact (reprMemo_red hI h0 flag this).1

/-- Without symmetries an atom which is its own adjoint is a self-adjoint word (or is not a word of operators of the problem). -/
theorem selfAdjoint_of_dagger (hI : symmetries I = [List.range (nOps I)]) {ch : Choice} (hch : ch.Computed I) {a : Atom} (ha : InRange I a) (h : ch.dagger a = a) : SelfAdjoint I a := by
  obtain ⟨m, hm, e⟩ := hch.dagger a ha
  rw [h] at e
  unfold conjugate at e
  split at e
  · rename_i hall
    apply selfAdjoint_of_comm
    unfold allCommuting at hall
    rw [Bool.or_eq_true] at hall
    rcases hall with h | h
    · intro x _ y _; exact (allCommute_iff I).1 h x y
    · simp only [Bool.not_eq_true', List.any_eq_false, Bool.not_eq_true] at h
      exact fun x hx y hy => h x hx y hy
  · have hr := (reprMemo_red hI (reached_red hI hm) true (inRange_reverse.2 ha)).2 (inRange_reverse.2 ha)
    rw [← e] at hr
    rcases hr.2 with h1 | ⟨h1, _⟩ | h1
    · exact h1.symm
    · subst h1; exact .refl _
    · simp at h1

/-- Without symmetries, the moments with a default lower bound are products of self-adjoint words, whatever has been computed before. -/
theorem safe_of_noSymmetry (hI : symmetries I = [List.range (nOps I)]) {cols : List (List Nat)} {ch : Choice} {name : Atom → String} {B : Built} (hV : Setup I cols ch name B) : BoundsSafe I B := by
  by_cases hc : allCommute I = true
  · exact safe_of_allCommute hc B
  · intro m hm a ha hr
    obtain ⟨orbits, repr, c, eqs, h1, h2, h3, _, _, _, henv⟩ := build_some hV.built
    rw [henv] at hm
    have hm : m ∈ hermitianMoments I ch _ := hm
    unfold hermitianMoments at hm
    rw [if_neg hc, List.mem_filter] at hm
    have := List.all_eq_true.1 hm.2 a ha
    exact selfAdjoint_of_dagger hI hV.computed hr (by simpa using this)

end Verif.SdpEnd
