import Verif.Sanitise.Relabel
import Mathlib.Data.Fintype.Sum
import Mathlib.Data.Fintype.Sets
import Mathlib.Data.Fintype.Card
import Mathlib.Order.Interval.Finset.Nat
/-!
Relabellings of the copies on sets of operators that have no copy in common can be combined into one relabelling.
-/
namespace Verif.Distinct
open Verif.Common Verif.Scenario Verif.Orbits Verif.Components Verif.Sanitise
open Verif.Symmetry (lexorderSymmetries Relabelling inducedRow act)

/-- Permutations of `1..L` on two disjoint sets with disjoint images extend to one permutation. -/
theorem glue_perm (L : Nat) (g h : Nat → Nat) (T U : Nat → Prop) (hg : ∀ c, 1 ≤ c → c ≤ L → 1 ≤ g c ∧ g c ≤ L)
    (hgi : ∀ c d, 1 ≤ c → c ≤ L → 1 ≤ d → d ≤ L → g c = g d → c = d) (hh : ∀ c, 1 ≤ c → c ≤ L → 1 ≤ h c ∧ h c ≤ L)
    (hhi : ∀ c d, 1 ≤ c → c ≤ L → 1 ≤ d → d ≤ L → h c = h d → c = d) (hTU : ∀ c, 1 ≤ c → c ≤ L → T c → ¬ U c)
    (himg : ∀ c d, 1 ≤ c → c ≤ L → 1 ≤ d → d ≤ L → T c → U d → g c ≠ h d) :
    ∃ k : Nat → Nat, k 0 = 0 ∧ (∀ c, 1 ≤ c → c ≤ L → 1 ≤ k c ∧ k c ≤ L) ∧ (∀ c d, 1 ≤ c → c ≤ L → 1 ≤ d → d ≤ L → k c = k d → c = d) ∧
      (∀ c, 1 ≤ c → c ≤ L → T c → k c = g c) ∧ (∀ c, 1 ≤ c → c ≤ L → U c → k c = h c) := by
  classical
  have hα : ∀ x : {c : Nat // c ∈ Finset.Icc 1 L}, 1 ≤ x.1 ∧ x.1 ≤ L := fun x => Finset.mem_Icc.1 x.2
  let f : {c : Nat // c ∈ Finset.Icc 1 L} → Nat := fun x => if T x.1 then g x.1 else h x.1
  let s : Set {c : Nat // c ∈ Finset.Icc 1 L} := {x | T x.1 ∨ U x.1}
  letI : Fintype {c : Nat // c ∈ Finset.Icc 1 L} := Finset.Subtype.fintype _
  have hcard : Fintype.card {c : Nat // c ∈ Finset.Icc 1 L} = (Finset.Icc 1 L).card := Fintype.card_coe _
  obtain ⟨e, he⟩ := Set.MapsTo.exists_equiv_extend_of_card_eq (t := Finset.Icc 1 L) hcard (s := s) (f := f) (by
    intro x _
    obtain ⟨h1, h2⟩ := hα x
    show f x ∈ ((Finset.Icc 1 L : Finset Nat) : Set Nat)
    rw [Finset.mem_coe, Finset.mem_Icc]
    show 1 ≤ (if T x.1 then g x.1 else h x.1) ∧ (if T x.1 then g x.1 else h x.1) ≤ L
    split
    · exact hg _ h1 h2
    · exact hh _ h1 h2) (by
    intro x hx y hy e
    obtain ⟨x1, x2⟩ := hα x
    obtain ⟨y1, y2⟩ := hα y
    have e : (if T x.1 then g x.1 else h x.1) = (if T y.1 then g y.1 else h y.1) := e
    apply Subtype.ext
    by_cases tx : T x.1
    · rw [if_pos tx] at e
      by_cases ty : T y.1
      · rw [if_pos ty] at e
        exact hgi _ _ x1 x2 y1 y2 e
      · rw [if_neg ty] at e
        rcases hy with hy | hy
        · exact absurd hy ty
        · exact absurd e (himg _ _ x1 x2 y1 y2 tx hy)
    · rw [if_neg tx] at e
      by_cases ty : T y.1
      · rw [if_pos ty] at e
        rcases hx with hx | hx
        · exact absurd hx tx
        · exact absurd e.symm (himg _ _ y1 y2 x1 x2 ty hx)
      · rw [if_neg ty] at e
        exact hhi _ _ x1 x2 y1 y2 e)
  let k : Nat → Nat := fun c => if hc : c ∈ Finset.Icc 1 L then (e ⟨c, hc⟩).1 else 0
  have hk : ∀ c (h1 : 1 ≤ c) (h2 : c ≤ L), k c = (e ⟨c, Finset.mem_Icc.2 ⟨h1, h2⟩⟩).1 := fun c h1 h2 => dif_pos (Finset.mem_Icc.2 ⟨h1, h2⟩)
  refine ⟨k, dif_neg (by simp), ?_, ?_, ?_, ?_⟩
  · intro c h1 h2
    rw [hk c h1 h2]
    exact Finset.mem_Icc.1 (e _).2
  · intro c d c1 c2 d1 d2 ecd
    rw [hk c c1 c2, hk d d1 d2] at ecd
    have := e.injective (Subtype.ext ecd)
    exact congrArg Subtype.val this
  · intro c h1 h2 hT
    rw [hk c h1 h2, he _ (Or.inl hT)]
    exact if_pos hT
  · intro c h1 h2 hU
    rw [hk c h1 h2, he _ (Or.inr hU)]
    exact if_neg fun hT => hTU c h1 h2 hT hU

variable {S : Scenario}

/-- The operator belongs to the set given by ranks. -/
def OpIn (S : Scenario) (l : List Nat) (op : Op) : Prop := ∃ i ∈ l, S.lexorder[i]? = some op

theorem OpIn.valid {l : List Nat} {op : Op} (h : OpIn S l op) : Valid S op := by
  obtain ⟨i, -, hi⟩ := h
  exact (mem_lexorder S).1 (List.mem_of_getElem? hi)

/-- The relabelling maps the operators of `g` onto those of `f`. -/
def Moved (S : Scenario) (σ : Nat → Nat → Nat) (f g : List Nat) : Prop :=
  (∀ op, OpIn S g op → OpIn S f (act σ op)) ∧ ∀ op', OpIn S f op' → ∃ op, OpIn S g op ∧ act σ op = op'

theorem copy_range {op : Op} (hv : Valid S op) {s c : Nat} (hc : op.copies[s]? = some c) (h0 : c ≠ 0) : s < S.nSources ∧ 1 ≤ c ∧ c ≤ max (S.level s) 1 := by
  obtain ⟨hs, e⟩ := List.getElem?_eq_some_iff.1 hc
  have hlen := hv.copies_len
  have hok := hv.copies_ok s hs
  split at hok
  · exact ⟨by omega, by omega, by rw [← e]; exact hok.2⟩
  · omega

theorem act_congr {op : Op} (hv : Valid S op) {σ τ : Nat → Nat → Nat} (hσ : Relabelling S σ) (hτ : Relabelling S τ)
    (h : ∀ s c, op.copies[s]? = some c → c ≠ 0 → σ s c = τ s c) : act σ op = act τ op := by
  unfold Verif.Symmetry.act
  congr 1
  apply List.ext_getElem (by simp)
  intro s h1 h2
  have hs : s < op.copies.length := by simpa using h1
  rw [List.getElem_mapIdx, List.getElem_mapIdx]
  by_cases h0 : op.copies[s] = 0
  · have hs' : s < S.nSources := by rw [← hv.copies_len]; exact hs
    rw [h0, (hσ s hs').1, (hτ s hs').1]
  · exact h s _ (List.getElem?_eq_getElem hs) h0

/-- Two relabellings on sets of operators without a common copy, with images without a common copy, are combined into one. -/
theorem glue {σ τ : Nat → Nat → Nat} (hσ : Relabelling S σ) (hτ : Relabelling S τ) (P Q : Op → Prop) (hP : ∀ op, P op → Valid S op) (hQ : ∀ op, Q op → Valid S op)
    (hPQ : ∀ a b, P a → Q b → ¬ ShareCopy a b) (himg : ∀ a b, P a → Q b → ¬ ShareCopy (act σ a) (act τ b)) :
    ∃ ρ, Relabelling S ρ ∧ (∀ op, P op → act ρ op = act σ op) ∧ ∀ op, Q op → act ρ op = act τ op := by
  classical
  have key : ∀ s, ∃ k : Nat → Nat, s < S.nSources → k 0 = 0 ∧ (∀ c, 1 ≤ c → c ≤ max (S.level s) 1 → 1 ≤ k c ∧ k c ≤ max (S.level s) 1) ∧
      (∀ c d, 1 ≤ c → c ≤ max (S.level s) 1 → 1 ≤ d → d ≤ max (S.level s) 1 → k c = k d → c = d) ∧
      (∀ c, 1 ≤ c → c ≤ max (S.level s) 1 → (∃ op, P op ∧ op.copies[s]? = some c) → k c = σ s c) ∧
      (∀ c, 1 ≤ c → c ≤ max (S.level s) 1 → (∃ op, Q op ∧ op.copies[s]? = some c) → k c = τ s c) := by
    intro s
    by_cases hs : s < S.nSources
    · obtain ⟨k, h1, h2, h3, h4, h5⟩ := glue_perm (max (S.level s) 1) (σ s) (τ s) (fun c => ∃ op, P op ∧ op.copies[s]? = some c) (fun c => ∃ op, Q op ∧ op.copies[s]? = some c)
        (hσ s hs).2.1 (hσ s hs).2.2 (hτ s hs).2.1 (hτ s hs).2.2
        (by
          rintro c c1 - ⟨a, ha, hac⟩ ⟨b, hb, hbc⟩
          exact hPQ a b ha hb ⟨s, c, by omega, hac, hbc⟩)
        (by
          rintro c d c1 c2 d1 d2 ⟨a, ha, hac⟩ ⟨b, hb, hbd⟩ e
          refine himg a b ha hb ⟨s, σ s c, ?_, ?_, ?_⟩
          · have := (hσ s hs).2.1 c c1 c2
            omega
          · simp [Verif.Symmetry.act, hac]
          · simp [Verif.Symmetry.act, hbd, e])
      exact ⟨k, fun _ => ⟨h1, h2, h3, h4, h5⟩⟩
    · exact ⟨id, fun h => absurd h hs⟩
  choose k hk using key
  have hρ : Relabelling S k := fun s hs => ⟨(hk s hs).1, (hk s hs).2.1, (hk s hs).2.2.1⟩
  refine ⟨k, hρ, ?_, ?_⟩
  · intro op hop
    refine act_congr (hP op hop) hρ hσ fun s c hc h0 => ?_
    obtain ⟨hs, h1, h2⟩ := copy_range (hP op hop) hc h0
    exact (hk s hs).2.2.2.1 c h1 h2 ⟨op, hop, hc⟩
  · intro op hop
    refine act_congr (hQ op hop) hρ hτ fun s c hc h0 => ?_
    obtain ⟨hs, h1, h2⟩ := copy_range (hQ op hop) hc h0
    exact (hk s hs).2.2.2.2 c h1 h2 ⟨op, hop, hc⟩

/-- Pairs of sets of operators, each related by a relabelling, such that the first sets have no copies in common, nor have the second ones: one relabelling relates all pairs. -/
theorem glue_all : ∀ (ps : List (List Nat × List Nat)), (∀ p ∈ ps, ∃ σ, Relabelling S σ ∧ Moved S σ p.1 p.2) →
    ps.Pairwise (fun p q => (∀ a b, OpIn S p.1 a → OpIn S q.1 b → ¬ ShareCopy a b) ∧ ∀ a b, OpIn S p.2 a → OpIn S q.2 b → ¬ ShareCopy a b) →
    ∃ σ, Relabelling S σ ∧ ∀ p ∈ ps, Moved S σ p.1 p.2 := by
  intro ps
  induction ps with
  | nil => exact fun _ _ => ⟨fun _ c => c, fun s _ => ⟨rfl, fun c h1 h2 => ⟨h1, h2⟩, fun c d _ _ _ _ h => h⟩, by simp⟩
  | cons p ps ih =>
    intro h hpw
    rw [List.pairwise_cons] at hpw
    obtain ⟨τ, hτ, hτm⟩ := ih (fun q hq => h q (List.mem_cons_of_mem _ hq)) hpw.2
    obtain ⟨σ, hσ, hσm⟩ := h p (List.mem_cons_self ..)
    obtain ⟨ρ, hρ, h1, h2⟩ := glue hσ hτ (fun op => OpIn S p.2 op) (fun op => ∃ q ∈ ps, OpIn S q.2 op) (fun op h => h.valid) (fun op ⟨q, _, h⟩ => h.valid)
      (by
        rintro a b ha ⟨q, hq, hb⟩
        exact (hpw.1 q hq).2 a b ha hb)
      (by
        rintro a b ha ⟨q, hq, hb⟩
        exact (hpw.1 q hq).1 _ _ (hσm.1 a ha) ((hτm q hq).1 b hb))
    refine ⟨ρ, hρ, ?_⟩
    intro q hq
    rcases List.mem_cons.1 hq with rfl | hq
    · refine ⟨fun op hop => by rw [h1 op hop]; exact hσm.1 op hop, fun op' hop' => ?_⟩
      obtain ⟨op, hop, e⟩ := hσm.2 op' hop'
      exact ⟨op, hop, by rw [h1 op hop, e]⟩
    · refine ⟨fun op hop => by rw [h2 op ⟨q, hq, hop⟩]; exact (hτm q hq).1 op hop, fun op' hop' => ?_⟩
      obtain ⟨op, hop, e⟩ := (hτm q hq).2 op' hop'
      exact ⟨op, hop, by rw [h2 op ⟨q, hq, hop⟩, e]⟩

theorem rank_unique {i j : Nat} {op : Op} (h1 : S.lexorder[i]? = some op) (h2 : S.lexorder[j]? = some op) : i = j := by
  obtain ⟨a1, a2⟩ := List.getElem?_eq_some_iff.1 h1
  obtain ⟨b1, b2⟩ := List.getElem?_eq_some_iff.1 h2
  exact ((lexorder_nodup S).getElem_inj_iff).1 (a2.trans b2.symm)

theorem row_get {σ : Nat → Nat → Nat} (hσ : Relabelling S σ) {i : Nat} {op : Op} (h : S.lexorder[i]? = some op) :
    S.lexorder[(inducedRow S σ).getD i 0]? = some (act σ op) := by
  obtain ⟨hi, rfl⟩ := List.getElem?_eq_some_iff.1 h
  have e : (inducedRow S σ).getD i 0 = S.lexorder.idxOf (act σ S.lexorder[i]) := by
    unfold inducedRow
    rw [List.getD_eq_getElem _ _ (by simpa using hi), List.getElem_map]
  have hm : act σ S.lexorder[i] ∈ S.lexorder := (mem_lexorder S).2 (Verif.Symmetry.act_valid S hσ (Verif.Symmetry.lex_valid S hi))
  rw [e, List.getElem?_eq_getElem (List.idxOf_lt_length_iff.2 hm), List.getElem_idxOf]

/-- Sets in the same orbit are related by a relabelling. -/
theorem moved_of_orbit {f g : List Nat} (hf : ∀ x ∈ f, x < S.lexorder.length) (hg : ∀ x ∈ g, x < S.lexorder.length)
    (h : SameOrbit (lexorderSymmetries S) (boolKey S.lexorder.length f) (boolKey S.lexorder.length g)) : ∃ σ, Relabelling S σ ∧ Moved S σ f g := by
  obtain ⟨r, hr, e⟩ := h
  obtain ⟨σ, hσ, rfl⟩ := (Verif.Symmetry.mem_symmetries S).1 hr
  have hiff := (image_boolKey ((symmetries_isGroup S).perm _ hr)).1 e
  obtain ⟨u, hu, eu⟩ := row_inverse hr
  refine ⟨σ, hσ, ?_, ?_⟩
  · rintro op ⟨i, hi, hop⟩
    exact ⟨_, (hiff i (hg i hi)).1 hi, row_get hσ hop⟩
  · rintro op' ⟨j, hj, hop'⟩
    have hjl := hf j hj
    have hlt := row_lt hu hjl
    have e1 := (eu j hjl).2
    refine ⟨S.lexorder[u.getD j 0], ⟨u.getD j 0, (hiff _ hlt).2 (by rw [e1]; exact hj), List.getElem?_eq_getElem hlt⟩, ?_⟩
    have := row_get hσ (List.getElem?_eq_getElem hlt)
    rw [e1, hop'] at this
    exact (Option.some.inj this).symm

/-- Sets related by a relabelling are in the same orbit. -/
theorem orbit_of_moved {a b : List Nat} {σ : Nat → Nat → Nat} (hσ : Relabelling S σ) (h : Moved S σ a b) :
    SameOrbit (lexorderSymmetries S) (boolKey S.lexorder.length a) (boolKey S.lexorder.length b) := by
  have hr : inducedRow S σ ∈ lexorderSymmetries S := (Verif.Symmetry.mem_symmetries S).2 ⟨σ, hσ, rfl⟩
  refine ⟨_, hr, (image_boolKey ((symmetries_isGroup S).perm _ hr)).2 ?_⟩
  intro i hi
  have hop := row_get hσ (List.getElem?_eq_getElem hi)
  constructor
  · intro hib
    obtain ⟨j, hj, e⟩ := h.1 _ ⟨i, hib, List.getElem?_eq_getElem hi⟩
    rw [rank_unique hop e]
    exact hj
  · intro hra
    obtain ⟨op, ⟨j, hj, hopj⟩, e⟩ := h.2 _ ⟨_, hra, hop⟩
    have : op = S.lexorder[i] := Verif.Symmetry.act_inj S hσ ((mem_lexorder S).1 (List.mem_of_getElem? hopj)) (Verif.Symmetry.lex_valid S hi) e
    rw [this] at hopj
    rw [← rank_unique hopj (List.getElem?_eq_getElem hi)]
    exact hj

end Verif.Distinct
