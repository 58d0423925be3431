import Verif.EndToEnd.Factor
import Verif.Marginal.Props
/-!
Knowable events have, in the inflated network, the probability that the original distribution assigns to them.
-/
namespace Verif.EndToEnd
open Verif.Scenario Verif.Orbits Verif.Symmetry Verif.Marginal

variable {S : Scenario} {O : Observed} {Λ F : Type} [Fintype Λ] [Field F] [LinearOrder F]

/-- All joint outcomes. -/
def outs (S : Scenario) : List Nat := (List.range S.nParties).map S.outcomes
/-- All joint own settings. -/
def ins (S : Scenario) (O : Observed) : List Nat := (List.range S.nParties).map O.priv

theorem mem_outs {S : Scenario} {a : List Nat} : a ∈ ndindex (outs S) ↔ a.length = S.nParties ∧ ∀ p < S.nParties, a.getD p 0 < S.outcomes p := by
  rw [mem_ndindex]
  unfold outs
  constructor
  · rintro ⟨h1, h2⟩
    have h1' : a.length = S.nParties := by simpa using h1
    refine ⟨h1', fun p hp => ?_⟩
    have := h2 p (by simpa using hp) (by omega)
    rw [List.getD_eq_getElem _ _ (by omega)]
    simpa using this
  · rintro ⟨h1, h2⟩
    refine ⟨by simpa using h1, ?_⟩
    intro p hp hp'
    have := h2 p (by simpa using hp)
    rw [List.getD_eq_getElem _ _ hp'] at this
    simpa using this

theorem sum_filter_partition {α : Type} {G : Type} [AddCommMonoid G] (l : List α) (f : α → G) (p : α → Prop) [DecidablePred p] (v : α → Nat) (d : Nat)
    (h : ∀ a ∈ l, v a < d) :
    ((l.filter fun a => decide (p a)).map f).sum = ((List.range d).map fun i => ((l.filter fun a => decide (p a ∧ v a = i)).map f).sum).sum := by
  induction l with
  | nil => simp
  | cons a l ih =>
    have ih := ih fun b hb => h b (List.mem_cons_of_mem _ hb)
    by_cases hp : p a
    · have e1 : (((a :: l).filter fun a => decide (p a)).map f).sum = f a + ((l.filter fun a => decide (p a)).map f).sum := by
        rw [List.filter_cons_of_pos (by simpa using hp)]; simp
      have e2 : ∀ i, (((a :: l).filter fun a => decide (p a ∧ v a = i)).map f).sum =
          (if v a = i then f a else 0) + ((l.filter fun a => decide (p a ∧ v a = i)).map f).sum := by
        intro i
        by_cases hi : v a = i
        · rw [List.filter_cons_of_pos (by simp [hp, hi])]; simp [hi]
        · rw [List.filter_cons_of_neg (by simp [hi])]; simp [hi]
      rw [e1, ih]
      simp only [e2]
      have e3 : ∀ g1 g2 : Nat → G, ((List.range d).map fun i => g1 i + g2 i).sum = ((List.range d).map g1).sum + ((List.range d).map g2).sum := by
        intro g1 g2
        induction (List.range d) with
        | nil => simp
        | cons x l ih => simp only [List.map_cons, List.sum_cons, ih]; exact add_add_add_comm _ _ _ _
      rw [e3]
      congr 1
      refine (Eq.trans (congrArg List.sum (List.map_congr_left fun i _ => ?_)) (sum_range_single d (v a) (h a (by simp)) (fun _ => f a))).symm
      by_cases hi : v a = i
      · rw [if_pos hi, if_pos hi.symm]
      · rw [if_neg hi, if_neg (fun e => hi e.symm)]
    · rw [List.filter_cons_of_neg (by simpa using hp), ih]
      congr 1
      apply List.map_congr_left
      intro i _
      rw [List.filter_cons_of_neg (by simp [hp])]

namespace ClassicalModel
variable (M : ClassicalModel S O Λ F)

/-- The product of the responses of all parties. -/
def joint (x : Nat → Nat) (l : Fin S.nSources → Λ) (a : Nat → Nat) : F :=
  ((List.range S.nParties).map fun p => M.response p (x p) ((O.parents p).map a) (a p) l).prod

/-- Parties outside of a set that contains its parents can be summed out. -/
theorem sum_out (hO : O.Ok S) (x : Nat → Nat) (hx : ∀ p < S.nParties, x p < O.priv p) (l : Fin S.nSources → Λ) :
    ∀ (n : Nat) (C : List Nat) (o : Nat → Nat), C.Nodup → (∀ q ∈ C, q < S.nParties) → (∀ q ∈ C, ∀ q' ∈ O.parents q, q' ∈ C) →
      (∀ q ∈ C, o q < S.outcomes q) → C.length + n = S.nParties →
    (((ndindex (outs S)).filter fun a => decide (∀ q ∈ C, a.getD q 0 = o q)).map fun a => M.joint x l fun p => a.getD p 0).sum =
      (C.map fun q => M.response q (x q) ((O.parents q).map o) (o q) l).prod := by
  intro n
  induction n with
  | zero =>
    intro C o hnd hlt hcl hr hlen
    have hperm : C.Perm (List.range S.nParties) := by
      have hsub : C.Subperm (List.range S.nParties) := List.Nodup.subperm hnd fun q hq => List.mem_range.2 (hlt q hq)
      exact hsub.perm_of_length_le (by simp; omega)
    have hall : ∀ p < S.nParties, p ∈ C := fun p hp => hperm.mem_iff.2 (List.mem_range.2 hp)
    let a0 := (List.range S.nParties).map o
    have ha0 : ∀ p < S.nParties, a0.getD p 0 = o p := by
      intro p hp
      rw [List.getD_eq_getElem _ _ (by simpa [a0] using hp)]
      simp [a0]
    have hfil : ((ndindex (outs S)).filter fun a => decide (∀ q ∈ C, a.getD q 0 = o q)).Perm [a0] := by
      rw [List.perm_ext_iff_of_nodup ((nodup_ndindex _).filter _) (by simp)]
      intro a
      rw [List.mem_filter, List.mem_singleton, mem_outs, decide_eq_true_iff]
      constructor
      · rintro ⟨⟨h1, _⟩, h2⟩
        apply List.ext_getElem (by simp [a0, h1])
        intro p hp hp'
        have := h2 p (hall p (by omega))
        rw [List.getD_eq_getElem _ _ hp] at this
        rw [this]
        simp [a0]
      · rintro rfl
        refine ⟨⟨by simp [a0], fun p hp => ?_⟩, fun q hq => ha0 q (hlt q hq)⟩
        rw [ha0 p hp]
        exact hr p (hall p hp)
    rw [(hfil.map _).sum_eq]
    simp only [List.map_cons, List.map_nil, List.sum_cons, List.sum_nil, add_zero]
    unfold joint
    rw [← (hperm.map fun p => M.response p (x p) ((O.parents p).map fun p => a0.getD p 0) (a0.getD p 0) l).prod_eq]
    congr 1
    apply List.map_congr_left
    intro q hq
    rw [ha0 q (hlt q hq)]
    congr 1
    apply List.map_congr_left
    intro q' hq'
    exact ha0 q' (hlt q' (hcl q hq q' hq'))
  | succ n ih =>
    intro C o hnd hlt hcl hr hlen
    obtain ⟨rank, hrank⟩ := hO.acyclic
    -- a missing party of least rank
    have hex : ∃ p, p < S.nParties ∧ p ∉ C ∧ ∀ q, q < S.nParties → q ∉ C → rank p ≤ rank q := by
      have hne : ((List.range S.nParties).filter fun p => decide (p ∉ C)) ≠ [] := by
        intro h
        have hsub : (List.range S.nParties).Subperm C := List.Nodup.subperm List.nodup_range fun q hq => by
          by_contra hc
          have : q ∈ (List.range S.nParties).filter fun p => decide (p ∉ C) := List.mem_filter.2 ⟨hq, by simpa using hc⟩
          rw [h] at this
          simp at this
        have := hsub.length_le
        simp at this
        omega
      have key : ∀ L : List Nat, L ≠ [] → ∃ p ∈ L, ∀ q ∈ L, rank p ≤ rank q := by
        intro L
        induction L with
        | nil => intro h; exact absurd rfl h
        | cons a L ih =>
          intro _
          by_cases hL : L = []
          · subst hL; exact ⟨a, by simp, by simp⟩
          · obtain ⟨p, hp, hmin⟩ := ih hL
            by_cases hap : rank a ≤ rank p
            · refine ⟨a, by simp, ?_⟩
              intro q hq
              rcases List.mem_cons.1 hq with rfl | hq
              · exact le_refl _
              · exact hap.trans (hmin q hq)
            · refine ⟨p, List.mem_cons_of_mem _ hp, ?_⟩
              intro q hq
              rcases List.mem_cons.1 hq with rfl | hq
              · omega
              · exact hmin q hq
      obtain ⟨p, hp, hmin⟩ := key _ hne
      rw [List.mem_filter, List.mem_range] at hp
      refine ⟨p, hp.1, by simpa using hp.2, fun q hq hqC => hmin q (List.mem_filter.2 ⟨List.mem_range.2 hq, by simpa using hqC⟩)⟩
    obtain ⟨p, hp, hpC, hmin⟩ := hex
    have hpar : ∀ q ∈ O.parents p, q ∈ C := by
      intro q hq
      by_contra hc
      obtain ⟨h1, h2⟩ := hrank p hp q hq
      have := hmin q h1 hc
      omega
    rw [sum_filter_partition _ _ (fun a => ∀ q ∈ C, a.getD q 0 = o q) (fun a => a.getD p 0) (S.outcomes p) fun a ha => (mem_outs.1 ha).2 p hp]
    have hstep : ∀ i ∈ List.range (S.outcomes p),
        (((ndindex (outs S)).filter fun a => decide ((∀ q ∈ C, a.getD q 0 = o q) ∧ a.getD p 0 = i)).map fun a => M.joint x l fun p => a.getD p 0).sum =
        M.response p (x p) ((O.parents p).map o) i l * (C.map fun q => M.response q (x q) ((O.parents q).map o) (o q) l).prod := by
      intro i hi
      let o' : Nat → Nat := fun q => if q = p then i else o q
      have ho' : ∀ q ∈ C, o' q = o q := fun q hq => if_neg (by rintro rfl; exact hpC hq)
      have hop : o' p = i := if_pos rfl
      have h := ih (p :: C) o' (List.nodup_cons.2 ⟨hpC, hnd⟩)
        (by intro q hq; rcases List.mem_cons.1 hq with rfl | hq; exacts [hp, hlt q hq])
        (by
          intro q hq q' hq'
          rcases List.mem_cons.1 hq with rfl | hq
          · exact List.mem_cons_of_mem _ (hpar q' hq')
          · exact List.mem_cons_of_mem _ (hcl q hq q' hq'))
        (by
          intro q hq
          rcases List.mem_cons.1 hq with rfl | hq
          · rw [hop]; exact List.mem_range.1 hi
          · rw [ho' q hq]; exact hr q hq)
        (by simp; omega)
      have hfil : ((ndindex (outs S)).filter fun a => decide ((∀ q ∈ C, a.getD q 0 = o q) ∧ a.getD p 0 = i)) =
          (ndindex (outs S)).filter fun a => decide (∀ q ∈ p :: C, a.getD q 0 = o' q) := by
        apply List.filter_congr
        intro a _
        rw [decide_eq_decide, List.forall_mem_cons, hop]
        constructor
        · rintro ⟨h1, h2⟩; exact ⟨h2, fun q hq => (h1 q hq).trans (ho' q hq).symm⟩
        · rintro ⟨h1, h2⟩; exact ⟨fun q hq => (h2 q hq).trans (ho' q hq), h1⟩
      rw [hfil, h, List.map_cons, List.prod_cons, hop]
      congr 1
      · congr 1
        exact List.map_congr_left fun q hq => ho' q (hpar q hq)
      · congr 1
        apply List.map_congr_left
        intro q hq
        rw [ho' q hq]
        congr 1
        exact List.map_congr_left fun q' hq' => ho' q' (hcl q hq q' hq')
    rw [List.map_congr_left hstep, List.sum_map_mul_right, M.response_sum p hp (x p) (hx p hp) _ ?_ l, one_mul]
    rw [mem_ndindex]
    refine ⟨by simp, ?_⟩
    intro s h h'
    simp only [List.getElem_map]
    exact hr _ (hpar _ (List.getElem_mem _))

/-- **Knowable events.** If the operators of an event are, up to the copy labels, "party `p` uses its own setting `x p` and obtains `o p`" for a set of parties that
contains its parents, on a single copy of each source, then its probability in the inflated network is the marginal of the original distribution. -/
theorem event_knowable (hO : O.Ok S) (e : List Nat) (ops : List Op) (he : e.map (S.lexorder[·]?) = ops.map some)
    (hone : Knowable.oneCopyPerSource S.nSources ops = true) (hnd : (ops.map (·.party)).Nodup) (x o : Nat → Nat)
    (hev : Knowable.IsEvent O.parents (O.dims S) x o ops) (x' : List Nat) (hx' : x' ∈ ndindex (ins S O))
    (hxx : ∀ op ∈ ops, x'.getD (op.party - 1) 0 = x (op.party - 1)) :
    M.event e = (((ndindex (outs S)).filter fun a => decide (∀ op ∈ ops, a.getD (op.party - 1) 0 = op.outcome)).map
      fun a => M.prob (fun p => a.getD p 0) (fun p => x'.getD p 0)).sum := by
  have hval : ∀ op ∈ ops, Valid S op := by
    intro op hop
    have : some op ∈ ops.map some := List.mem_map.2 ⟨op, hop, rfl⟩
    rw [← he] at this
    obtain ⟨r, _, hr⟩ := List.mem_map.1 this
    exact (mem_lexorder S).1 (List.mem_of_getElem? hr)
  rw [M.event_single e ops he hone]
  unfold prob
  rw [expect_sum]
  apply expect_congr
  intro l
  have hxr : ∀ p < S.nParties, x'.getD p 0 < O.priv p := by
    intro p hp
    have := mem_ndindex.1 hx'
    have hl : x'.length = S.nParties := by simpa [ins] using this.1
    have h2 := this.2 p (by simpa [ins] using hp) (by omega)
    rw [List.getD_eq_getElem _ _ (by omega)]
    simpa [ins] using h2
  let C := ops.map fun op => op.party - 1
  have hC : C.Nodup := by
    refine List.Nodup.map_on ?_ hnd.of_map
    intro a ha b hb hab
    have h1 := (hval a ha).party_pos
    have h2 := (hval b hb).party_pos
    exact List.inj_on_of_nodup_map hnd ha hb (by omega)
  have hlt : ∀ q ∈ C, q < S.nParties := by
    intro q hq
    obtain ⟨op, hop, rfl⟩ := List.mem_map.1 hq
    have h1 := (hval op hop).party_pos
    have h2 := (hval op hop).party_le
    omega
  have hcl : ∀ q ∈ C, ∀ q' ∈ O.parents q, q' ∈ C := by
    intro q hq q' hq'
    obtain ⟨op, hop, rfl⟩ := List.mem_map.1 hq
    obtain ⟨op', hop', e1⟩ := hev.closed op hop q' hq'
    exact List.mem_map.2 ⟨op', hop', e1⟩
  have hr : ∀ q ∈ C, o q < S.outcomes q := by
    intro q hq
    obtain ⟨op, hop, rfl⟩ := List.mem_map.1 hq
    rw [← hev.outcome op hop]
    exact (hval op hop).outcome_lt
  have hlen : C.length ≤ S.nParties := by
    have := (List.Nodup.subperm hC (l₂ := List.range S.nParties) fun q hq => List.mem_range.2 (hlt q hq)).length_le
    simpa using this
  have h := M.sum_out hO (fun p => x'.getD p 0) hxr l (S.nParties - C.length) C o hC hlt hcl hr (by omega)
  have hfil : ((ndindex (outs S)).filter fun a => decide (∀ op ∈ ops, a.getD (op.party - 1) 0 = op.outcome)) =
      (ndindex (outs S)).filter fun a => decide (∀ q ∈ C, a.getD q 0 = o q) := by
    apply List.filter_congr
    intro a _
    rw [decide_eq_decide]
    constructor
    · intro hh q hq
      obtain ⟨op, hop, rfl⟩ := List.mem_map.1 hq
      rw [hh op hop, hev.outcome op hop]
    · intro hh op hop
      rw [hh _ (List.mem_map.2 ⟨op, hop, rfl⟩), hev.outcome op hop]
  rw [hfil]
  refine Eq.trans ?_ h.symm
  show _ = ((ops.map fun op => op.party - 1).map _).prod
  rw [List.map_map]
  congr 1
  apply List.map_congr_left
  intro op hop
  show M.opAt op l = M.response (op.party - 1) (x'.getD (op.party - 1) 0) _ _ l
  unfold opAt
  rw [hev.setting op hop, hxx op hop, hev.outcome op hop]

end ClassicalModel
end Verif.EndToEnd
