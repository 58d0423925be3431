import Verif.Theory.Columns
/-!
The values which `set_distribution` computes are the probabilities that the theory gives to the atoms.
-/
namespace Verif.Theory
open Verif.Common Verif.Scenario Verif.Components Verif.Orbits Verif.CollinsGisin Verif.Moment Verif.State
open Verif.EndToEnd (Input GoodRanks operators_valid operators_spec operators_parties knowable_event outs ins mem_outs sum_filter_partition valF atomicFactors_good)
open Verif.EndToEnd.ClassicalModel (decode_some)
open Verif.Symmetry (Relabelling)
open Verif.Knowable (oneCopyPerSource)

variable {I : Input}

/-- What `compute_marginal` returns for a knowable atom. -/
theorem atomMarginal_explicit (hI : I.Accepted) (P : List Nat → Rat) {a : Atom} (ha : GoodRanks I.scenario a) (hk : I.knowable a = true) :
    ∃ x o : Nat → Nat, ∃ x' : List Nat, oneCopyPerSource I.scenario.nSources (I.operators a) = true ∧ ((I.operators a).map (·.party)).Nodup ∧
      Knowable.IsEvent I.parents I.dims x o (I.operators a) ∧ x' ∈ ndindex I.priv ∧ (∀ op ∈ I.operators a, x'.getD (op.party - 1) 0 = x (op.party - 1)) ∧
      I.atomMarginal P a = some (((ndindex I.outcomes).filter fun b => decide (∀ op ∈ I.operators a, b.getD (op.party - 1) 0 = op.outcome)).map fun b => P (b ++ x')).sum := by
  obtain ⟨hone, hnd, x, o, hev⟩ := knowable_event hI ha hk
  have hval := operators_valid (I := I) a
  have hspec := operators_spec (I := I) ha.lt
  have hrect := Knowable.C20_rectified I.parents I.dims x o _ hev
  have hne : a.isEmpty = false := by simpa using ha.ne
  have hrec : I.rectified a = some ((I.operators a).map fun op => ⟨op.party, x (op.party - 1), o (op.party - 1)⟩) := by
    unfold Input.rectified
    rw [hne, hrect]
    simp
  set rows : List Marginal.Row := (I.operators a).map fun op => ⟨op.party, x (op.party - 1), o (op.party - 1)⟩ with hrows
  have hgood : Marginal.GoodAtom I.outcomes rows := by
    refine ⟨?_, ?_, ?_, ?_⟩
    · rw [hrows, List.pairwise_map]
      have h1 := operators_parties ha
      have h2 : (I.operators a).Pairwise fun s t => s.party ≠ t.party := by
        have := hnd
        rwa [List.Nodup, List.pairwise_map] at this
      exact (h1.and h2).imp fun h => lt_of_le_of_ne h.1 h.2
    · intro t ht
      obtain ⟨op, hop, rfl⟩ := List.mem_map.1 ht
      exact (hval op hop).party_pos
    · intro t ht
      obtain ⟨op, hop, rfl⟩ := List.mem_map.1 ht
      rw [hI.outcomes_length]
      exact (hval op hop).party_le
    · intro t ht
      obtain ⟨op, hop, rfl⟩ := List.mem_map.1 ht
      have h1 := (hval op hop).party_pos
      have h2 := (hval op hop).party_le
      have h3 := (hval op hop).outcome_lt
      have hlt : op.party - 1 < I.outcomes.length := by
        rw [hI.outcomes_length]
        have : I.scenario.nParties = I.D.names.length := rfl
        omega
      refine ⟨I.outcomes[op.party - 1], List.getElem?_eq_getElem hlt, ?_⟩
      have h4 : I.scenario.outcomes (op.party - 1) = I.outcomes[op.party - 1] := List.getD_eq_getElem _ _ hlt
      rw [← h4]
      show o (op.party - 1) < _
      rw [← hev.outcome op hop]
      exact h3
  have hsett : Marginal.GoodSettings I.priv rows := by
    refine ⟨hI.priv_pos, ?_⟩
    intro t ht
    obtain ⟨op, hop, rfl⟩ := List.mem_map.1 ht
    have h1 := (hval op hop).party_pos
    have h2 := (hval op hop).party_le
    have hlt : op.party - 1 < I.priv.length := by
      rw [hI.priv_length]
      have : I.scenario.nParties = I.D.names.length := rfl
      omega
    refine ⟨I.priv[op.party - 1], List.getElem?_eq_getElem hlt, ?_⟩
    obtain ⟨x', y, h4, h5, _⟩ := decode_some hI.ok (hval op hop)
    have hd : I.observed.dims I.scenario (op.party - 1) = I.dims (op.party - 1) := rfl
    rw [hd, hev.setting op hop] at h4
    simp only [Option.some.injEq, List.cons.injEq] at h4
    show x (op.party - 1) < _
    rw [h4.1]
    have h6 : I.observed.priv (op.party - 1) = I.priv[op.party - 1] := List.getD_eq_getElem _ _ hlt
    rw [← h6]
    exact h5
  have hn : I.priv.length = I.outcomes.length := by rw [hI.priv_length, hI.outcomes_length]
  have hrne : rows ≠ [] := by
    rw [hrows]
    intro h
    have h1 : (I.operators a) = [] := by simpa using h
    rw [h1] at hspec
    simp at hspec
    exact ha.ne hspec
  have hmem : Marginal.inputList I.outcomes.length rows ∈ ndindex I.priv := Marginal.inputList_mem hn hgood hsett
  have hso := Marginal.inputList_settingsOf hgood
  refine ⟨x, o, Marginal.inputList I.outcomes.length rows, hone, hnd, hev, hmem, ?_, ?_⟩
  · intro op hop
    have := hso.2 _ (List.mem_map.2 ⟨op, hop, rfl⟩)
    rw [List.getD_eq_getElem?_getD]
    simp only at this
    rw [this]
    rfl
  · unfold Input.atomMarginal
    rw [hrec, Option.map_some, Marginal.computeMarginal_eq hn P hgood hrne]
    unfold Marginal.marginal
    congr 3
    apply List.filter_congr
    intro b hb
    rw [decide_eq_decide]
    have hlb := (mem_ndindex.1 hb).1
    unfold Marginal.Agrees
    constructor
    · intro h op hop
      have := h _ (List.mem_map.2 ⟨op, hop, rfl⟩)
      rw [List.getD_eq_getElem?_getD]
      simp only at this
      rw [this, hev.outcome op hop]
      rfl
    · intro h t ht
      obtain ⟨op, hop, rfl⟩ := List.mem_map.1 ht
      have h1 := h op hop
      have hp := (hval op hop).party_le
      have hp1 := (hval op hop).party_pos
      have hlt : op.party - 1 < b.length := by
        rw [hlb, hI.outcomes_length]
        have : I.scenario.nParties = I.D.names.length := rfl
        omega
      rw [List.getD_eq_getElem _ _ hlt] at h1
      show b[op.party - 1]? = some (o (op.party - 1))
      rw [List.getElem?_eq_getElem hlt, h1, hev.outcome op hop]

theorem linked_hyp {src p q : Nat} (h : Linked I.D src p q) : I.D.hypRow src p = 1 ∧ I.D.hypRow src q = 1 := by
  have h1 := (C45_dag_tables I.D src p p).2.2.2.1
  have h2 := (C45_dag_tables I.D src q q).2.2.2.1
  rw [h1, h2]
  rcases h with ⟨c, hc, hn, rfl, rfl⟩ | ⟨l, hl, hn, hp, hq⟩
  · exact ⟨.inl ⟨c, hc, hn, rfl, rfl⟩, .inl ⟨c, hc, hn, rfl, rfl⟩⟩
  · exact ⟨.inr ⟨l, hl, hn, hp, hp⟩, .inr ⟨l, hl, hn, hq, hq⟩⟩

/-- Operators of different parties on a single copy of each source can be measured together. -/
theorem joint_single {e : List Op} (hv : ∀ op ∈ e, Valid I.scenario op) (hnd : (e.map (·.party)).Nodup) (hone : oneCopyPerSource I.scenario.nSources e = true) : Joint I e where
  valid := hv
  compat := by
    have hnd' : e.Pairwise fun x y => x.party ≠ y.party := by
      rwa [List.Nodup, List.pairwise_map] at hnd
    refine List.Pairwise.imp_of_mem ?_ hnd'
    intro x y hx hy hxy
    refine ⟨fun h => hxy h.1, ?_⟩
    rintro ⟨_, ⟨s, src, c, d, hs, hl, hc, hd, hcd⟩ | ⟨h, _⟩⟩
    · obtain ⟨h1, h2⟩ := linked_hyp hl
      obtain ⟨hslt, hsv⟩ := List.getElem?_eq_some_iff.1 hs
      have hhyp : ∀ p, I.scenario.hyp s p = (I.D.hypRow src p == 1) := by
        intro p
        show (I.D.hypRow (I.D.sources.getD s 0) p == 1) = _
        rw [List.getD_eq_getElem _ _ hslt, hsv]
      have hpos : ∀ op ∈ e, ∀ c, op.copies[s]? = some c → I.D.hypRow src (op.party - 1) = 1 → op.copies.getD s 0 = c ∧ c ≠ 0 := by
        intro op hop c hc hh
        obtain ⟨hlt, hcv⟩ := List.getElem?_eq_some_iff.1 hc
        have := (hv op hop).copies_ok s hlt
        rw [hhyp, hh] at this
        simp only [BEq.rfl, if_true] at this
        refine ⟨by rw [List.getD_eq_getElem _ _ hlt]; exact hcv, by omega⟩
      obtain ⟨a1, a2⟩ := hpos x hx c hc h1
      obtain ⟨b1, b2⟩ := hpos y hy d hd h2
      have := Knowable.oneCopy_iff.1 hone s (by exact hslt) x hx y hy (by rw [a1]; exact a2) (by rw [b1]; exact b2)
      rw [a1, b1] at this
      exact hcd this
    · exact hxy h

/-- The operator of the original network "party `p` has own setting `x p`, its parents obtained `o`, and it obtains `o p`". -/
def orig (I : Input) (x o : Nat → Nat) (p : Nat) : Op :=
  ⟨p + 1, (List.range I.scenario.nSources).map fun s => if I.scenario.hyp s p then 1 else 0, (ndindex (I.dims p)).idxOf (x p :: (I.parents p).map o), o p⟩

theorem orig_setting {x o : Nat → Nat} {p : Nat} (hx : x p < I.observed.priv p) (ho : ∀ q ∈ I.parents p, o q < I.scenario.outcomes q) :
    x p :: (I.parents p).map o ∈ ndindex (I.dims p) := by
  rw [mem_ndindex]
  refine ⟨by simp [Input.dims], ?_⟩
  intro s h h'
  unfold Input.dims at h ⊢
  rcases s with _ | s
  · exact hx
  · simp only [List.getElem_cons_succ, List.getElem_map]
    exact ho _ (List.getElem_mem _)

theorem orig_valid {x o : Nat → Nat} {p : Nat} (hp : p < I.scenario.nParties) (hx : x p < I.observed.priv p) (ho : ∀ q ∈ I.parents p, o q < I.scenario.outcomes q)
    (hop : o p < I.scenario.outcomes p) : Valid I.scenario (orig I x o p) where
  party_pos := by simp [orig]
  party_le := hp
  copies_len := by simp [orig]
  copies_ok := by
    intro s h
    show if I.scenario.hyp s p = true then _ else _
    by_cases hh : I.scenario.hyp s p = true
    · simp only [orig, List.getElem_map, List.getElem_range, hh, if_true]
      omega
    · simp only [orig, List.getElem_map, List.getElem_range, hh, if_false]
      rfl
  setting_lt := by
    show (ndindex (I.dims p)).idxOf _ < effectiveSettings (I.dims p)
    unfold effectiveSettings
    rw [← length_ndindex]
    exact List.idxOf_lt_length_iff.2 (orig_setting hx ho)
  outcome_lt := hop

theorem orig_decode {x o : Nat → Nat} {p : Nat} (hx : x p < I.observed.priv p) (ho : ∀ q ∈ I.parents p, o q < I.scenario.outcomes q) :
    decodeSetting (I.dims p) (orig I x o p).setting = some (x p :: (I.parents p).map o) := by
  have hi := List.idxOf_lt_length_iff.2 (orig_setting hx ho)
  rw [decodeSetting_eq]
  show (ndindex (I.dims p))[(ndindex (I.dims p)).idxOf _]? = _
  rw [List.getElem?_eq_getElem hi, List.getElem_idxOf]

theorem orig_joint {x o : Nat → Nat} {C : List Nat} (hC : C.Nodup) (hlt : ∀ q ∈ C, q < I.scenario.nParties) (hx : ∀ q ∈ C, x q < I.observed.priv q)
    (ho : ∀ q ∈ C, o q < I.scenario.outcomes q) (hcl : ∀ q ∈ C, ∀ q' ∈ I.parents q, q' ∈ C) : Joint I (C.map (orig I x o)) := by
  apply joint_single
  · intro op hop
    obtain ⟨q, hq, rfl⟩ := List.mem_map.1 hop
    exact orig_valid (hlt q hq) (hx q hq) (fun q' hq' => ho q' (hcl q hq q' hq')) (ho q hq)
  · rw [List.map_map]
    exact hC.map fun a b h => by simpa [orig] using h
  · rw [Knowable.oneCopy_iff]
    intro s hs a ha b hb h1 h2
    obtain ⟨q, _, rfl⟩ := List.mem_map.1 ha
    obtain ⟨q', _, rfl⟩ := List.mem_map.1 hb
    have hv : ∀ q : Nat, (orig I x o q).copies.getD s 0 = if I.scenario.hyp s q then 1 else 0 := by
      intro q
      rw [List.getD_eq_getElem _ _ (by simpa [orig] using hs)]
      simp [orig]
    rw [hv] at h1 h2 ⊢
    rw [hv]
    split at h1
    · split at h2
      · rename_i e1 e2
        rw [if_pos e1, if_pos e2]
      · exact absurd rfl h2
    · exact absurd rfl h1

theorem orig_congr {x o o' : Nat → Nat} {p : Nat} (h : o p = o' p) (hp : ∀ q ∈ I.parents p, o q = o' q) : orig I x o p = orig I x o' p := by
  unfold orig
  rw [h, List.map_congr_left hp]

theorem exists_min_rank (rank : Nat → Nat) {n : Nat} {C : List Nat} (hlen : C.length < n) (hlt : ∀ q ∈ C, q < n) :
    ∃ p, p < n ∧ p ∉ C ∧ ∀ q, q < n → q ∉ C → rank p ≤ rank q := by
  have hne : ((List.range n).filter fun p => decide (p ∉ C)) ≠ [] := by
    intro h
    have hsub : (List.range n).Subperm C := List.Nodup.subperm List.nodup_range fun q hq => by
      by_contra hc
      have : q ∈ (List.range n).filter fun p => decide (p ∉ C) := List.mem_filter.2 ⟨hq, by simpa using hc⟩
      rw [h] at this
      simp at this
    have := hsub.length_le
    simp at this
    omega
  have key : ∀ L : List Nat, L ≠ [] → ∃ p ∈ L, ∀ q ∈ L, rank p ≤ rank q := by
    intro L
    induction L with
    | nil => intro h; exact absurd rfl h
    | cons a L ih =>
      intro _
      by_cases hL : L = []
      · subst hL; exact ⟨a, by simp, by simp⟩
      · obtain ⟨p, hp, hmin⟩ := ih hL
        by_cases hap : rank a ≤ rank p
        · refine ⟨a, by simp, ?_⟩
          intro q hq
          rcases List.mem_cons.1 hq with rfl | hq
          · exact le_refl _
          · exact hap.trans (hmin q hq)
        · refine ⟨p, List.mem_cons_of_mem _ hp, ?_⟩
          intro q hq
          rcases List.mem_cons.1 hq with rfl | hq
          · omega
          · exact hmin q hq
  obtain ⟨p, hp, hmin⟩ := key _ hne
  rw [List.mem_filter, List.mem_range] at hp
  exact ⟨p, hp.1, by simpa using hp.2, fun q hq hqC => hmin q (List.mem_filter.2 ⟨List.mem_range.2 hq, by simpa using hqC⟩)⟩

variable {F : Type} [Field F] [LinearOrder F] (T : InflatedTheory I F)

/-- Parties outside of a set that contains its parents can be summed out. -/
theorem InflatedTheory.sum_out (hI : I.Accepted) (x : Nat → Nat) (hx : ∀ p < I.scenario.nParties, x p < I.observed.priv p) :
    ∀ (n : Nat) (C : List Nat) (o : Nat → Nat), C.Nodup → (∀ q ∈ C, q < I.scenario.nParties) → (∀ q ∈ C, ∀ q' ∈ I.parents q, q' ∈ C) →
      (∀ q ∈ C, o q < I.scenario.outcomes q) → C.length + n = I.scenario.nParties →
    (((ndindex (outs I.scenario)).filter fun a => decide (∀ q ∈ C, a.getD q 0 = o q)).map fun a => T.prob ((List.range I.scenario.nParties).map (orig I x fun p => a.getD p 0))).sum =
      T.prob (C.map (orig I x o)) := by
  intro n
  induction n with
  | zero =>
    intro C o hnd hlt hcl hr hlen
    have hperm : C.Perm (List.range I.scenario.nParties) := by
      have hsub : C.Subperm (List.range I.scenario.nParties) := List.Nodup.subperm hnd fun q hq => List.mem_range.2 (hlt q hq)
      exact hsub.perm_of_length_le (by simp; omega)
    have hall : ∀ p < I.scenario.nParties, p ∈ C := fun p hp => hperm.mem_iff.2 (List.mem_range.2 hp)
    let a0 := (List.range I.scenario.nParties).map o
    have ha0 : ∀ p < I.scenario.nParties, a0.getD p 0 = o p := by
      intro p hp
      rw [List.getD_eq_getElem _ _ (by simpa [a0] using hp)]
      simp [a0]
    have hfil : ((ndindex (outs I.scenario)).filter fun a => decide (∀ q ∈ C, a.getD q 0 = o q)).Perm [a0] := by
      rw [List.perm_ext_iff_of_nodup ((nodup_ndindex _).filter _) (by simp)]
      intro a
      rw [List.mem_filter, List.mem_singleton, mem_outs, decide_eq_true_iff]
      constructor
      · rintro ⟨⟨h1, _⟩, h2⟩
        apply List.ext_getElem (by simp [a0, h1])
        intro p hp hp'
        have := h2 p (hall p (by omega))
        rw [List.getD_eq_getElem _ _ hp] at this
        rw [this]
        simp [a0]
      · rintro rfl
        refine ⟨⟨by simp [a0], fun p hp => ?_⟩, fun q hq => ha0 q (hlt q hq)⟩
        rw [ha0 p hp]
        exact hr p (hall p hp)
    rw [(hfil.map _).sum_eq]
    simp only [List.map_cons, List.map_nil, List.sum_cons, List.sum_nil, add_zero]
    have hjoint : Joint I (C.map (orig I x fun p => a0.getD p 0)) :=
      orig_joint hnd hlt (fun q hq => hx q (hlt q hq)) (fun q hq => by rw [ha0 q (hlt q hq)]; exact hr q hq) hcl
    rw [← T.perm _ _ hjoint (hperm.map (orig I x fun p => a0.getD p 0))]
    congr 1
    apply List.map_congr_left
    intro q hq
    exact orig_congr (ha0 q (hlt q hq)) fun q' hq' => ha0 q' (hlt q' (hcl q hq q' hq'))
  | succ n ih =>
    intro C o hnd hlt hcl hr hlen
    obtain ⟨rank, hrank⟩ := hI.acyclic
    obtain ⟨p, hp, hpC, hmin⟩ := exists_min_rank rank (n := I.scenario.nParties) (C := C) (by omega) hlt
    have hpar : ∀ q ∈ I.parents p, q ∈ C := by
      intro q hq
      by_contra hc
      have h1 := hrank p hp q hq
      have := hmin q (EndToEnd.parents_lt hq) hc
      omega
    rw [sum_filter_partition _ _ (fun a => ∀ q ∈ C, a.getD q 0 = o q) (fun a => a.getD p 0) (I.scenario.outcomes p) fun a ha => (mem_outs.1 ha).2 p hp]
    have hstep : ∀ i ∈ List.range (I.scenario.outcomes p),
        (((ndindex (outs I.scenario)).filter fun a => decide ((∀ q ∈ C, a.getD q 0 = o q) ∧ a.getD p 0 = i)).map
          fun a => T.prob ((List.range I.scenario.nParties).map (orig I x fun p => a.getD p 0))).sum = T.prob ({ orig I x o p with outcome := i } :: C.map (orig I x o)) := by
      intro i hi
      let o' : Nat → Nat := fun q => if q = p then i else o q
      have ho' : ∀ q ∈ C, o' q = o q := fun q hq => if_neg (by rintro rfl; exact hpC hq)
      have hop : o' p = i := if_pos rfl
      have h := ih (p :: C) o' (List.nodup_cons.2 ⟨hpC, hnd⟩)
        (by intro q hq; rcases List.mem_cons.1 hq with rfl | hq; exacts [hp, hlt q hq])
        (by
          intro q hq q' hq'
          rcases List.mem_cons.1 hq with rfl | hq
          · exact List.mem_cons_of_mem _ (hpar q' hq')
          · exact List.mem_cons_of_mem _ (hcl q hq q' hq'))
        (by
          intro q hq
          rcases List.mem_cons.1 hq with rfl | hq
          · rw [hop]; exact List.mem_range.1 hi
          · rw [ho' q hq]; exact hr q hq)
        (by simp; omega)
      have hfil : ((ndindex (outs I.scenario)).filter fun a => decide ((∀ q ∈ C, a.getD q 0 = o q) ∧ a.getD p 0 = i)) =
          (ndindex (outs I.scenario)).filter fun a => decide (∀ q ∈ p :: C, a.getD q 0 = o' q) := by
        apply List.filter_congr
        intro a _
        rw [decide_eq_decide, List.forall_mem_cons, hop]
        constructor
        · rintro ⟨h1, h2⟩; exact ⟨h2, fun q hq => (h1 q hq).trans (ho' q hq).symm⟩
        · rintro ⟨h1, h2⟩; exact ⟨fun q hq => (h2 q hq).trans (ho' q hq), h1⟩
      rw [hfil, h, List.map_cons]
      congr 2
      · unfold orig
        simp only [hop]
        rw [List.map_congr_left fun q hq => ho' q (hpar q hq)]
      · apply List.map_congr_left
        intro q hq
        exact orig_congr (ho' q hq) fun q' hq' => ho' q' (hcl q hq q' hq')
    rw [List.map_congr_left hstep]
    let o1 : Nat → Nat := fun q => if q = p then 0 else o q
    have ho1 : ∀ q ∈ C, o1 q = o q := fun q hq => if_neg (by rintro rfl; exact hpC hq)
    have hop1 : o1 p = 0 := if_pos rfl
    have hj : Joint I ((p :: C).map (orig I x o1)) := by
      apply orig_joint (List.nodup_cons.2 ⟨hpC, hnd⟩)
      · intro q hq; rcases List.mem_cons.1 hq with rfl | hq; exacts [hp, hlt q hq]
      · intro q hq; rcases List.mem_cons.1 hq with rfl | hq; exacts [hx _ hp, hx _ (hlt q hq)]
      · intro q hq
        rcases List.mem_cons.1 hq with rfl | hq
        · rw [hop1]; exact hI.out_pos _ hp
        · rw [ho1 q hq]; exact hr q hq
      · intro q hq q' hq'
        rcases List.mem_cons.1 hq with rfl | hq
        · exact List.mem_cons_of_mem _ (hpar q' hq')
        · exact List.mem_cons_of_mem _ (hcl q hq q' hq')
    have hC : C.map (orig I x o1) = C.map (orig I x o) := List.map_congr_left fun q hq => orig_congr (ho1 q hq) fun q' hq' => ho1 q' (hcl q hq q' hq')
    rw [List.map_cons, hC] at hj
    have hm := T.marginal _ _ hj
    refine Eq.trans ?_ hm
    congr 1
    apply List.map_congr_left
    intro i _
    congr 2
    unfold orig
    simp only
    rw [List.map_congr_left fun q hq => ho1 q (hpar q hq)]

/-- The transposition which brings the copies used by an event to the front. -/
def swapTo (k : Nat → Nat) (s c : Nat) : Nat := if c = k s then 1 else if c = 1 then k s else c

theorem swapTo_relabelling {S : Scenario} {k : Nat → Nat} (hk : ∀ s < S.nSources, 1 ≤ k s ∧ k s ≤ max (S.level s) 1) : Relabelling S (swapTo k) := by
  intro s hs
  have := hk s hs
  unfold swapTo
  refine ⟨?_, ?_, ?_⟩
  · rw [if_neg (by omega), if_neg (by omega)]
  · intro c h1 h2
    split
    · omega
    · split <;> omega
  · intro c d _ _ _ _ h
    split at h <;> split at h <;> (try split at h) <;> (try split at h) <;> omega

/-- **Knowable events** of the inflated network have the probability of the original network. -/
theorem InflatedTheory.event_knowable (hI : I.Accepted) (e : List Op) (hval : ∀ op ∈ e, Valid I.scenario op) (hone : oneCopyPerSource I.scenario.nSources e = true) (hnd : (e.map (·.party)).Nodup)
    (x o : Nat → Nat) (hev : Knowable.IsEvent I.parents I.dims x o e) (x' : List Nat) (hx' : x' ∈ ndindex (ins I.scenario I.observed))
    (hxx : ∀ op ∈ e, x'.getD (op.party - 1) 0 = x (op.party - 1)) :
    T.prob e = (((ndindex (outs I.scenario)).filter fun a => decide (∀ op ∈ e, a.getD (op.party - 1) 0 = op.outcome)).map
      fun a => T.prob ((List.range I.scenario.nParties).map (orig I (fun p => x'.getD p 0) fun p => a.getD p 0))).sum := by
  have hxr : ∀ p < I.scenario.nParties, x'.getD p 0 < I.observed.priv p := by
    intro p hp
    have := mem_ndindex.1 hx'
    have hl : x'.length = I.scenario.nParties := by simpa [ins] using this.1
    have h2 := this.2 p (by simpa [ins] using hp) (by omega)
    rw [List.getD_eq_getElem _ _ (by omega)]
    simpa [ins] using h2
  let C := e.map fun op => op.party - 1
  have hC : C.Nodup := by
    refine List.Nodup.map_on ?_ hnd.of_map
    intro a ha b hb hab
    have h1 := (hval a ha).party_pos
    have h2 := (hval b hb).party_pos
    exact List.inj_on_of_nodup_map hnd ha hb (by omega)
  have hlt : ∀ q ∈ C, q < I.scenario.nParties := by
    intro q hq
    obtain ⟨op, hop, rfl⟩ := List.mem_map.1 hq
    have h1 := (hval op hop).party_pos
    have h2 := (hval op hop).party_le
    omega
  have hcl : ∀ q ∈ C, ∀ q' ∈ I.parents q, q' ∈ C := by
    intro q hq q' hq'
    obtain ⟨op, hop, rfl⟩ := List.mem_map.1 hq
    obtain ⟨op', hop', e1⟩ := hev.closed op hop q' hq'
    exact List.mem_map.2 ⟨op', hop', e1⟩
  have hr : ∀ q ∈ C, o q < I.scenario.outcomes q := by
    intro q hq
    obtain ⟨op, hop, rfl⟩ := List.mem_map.1 hq
    rw [← hev.outcome op hop]
    exact (hval op hop).outcome_lt
  have hlen : C.length ≤ I.scenario.nParties := by
    have := (List.Nodup.subperm hC (l₂ := List.range I.scenario.nParties) fun q hq => List.mem_range.2 (hlt q hq)).length_le
    simpa using this
  have h := T.sum_out hI (fun p => x'.getD p 0) hxr (I.scenario.nParties - C.length) C o hC hlt hcl hr (by omega)
  have hfil : ((ndindex (outs I.scenario)).filter fun a => decide (∀ op ∈ e, a.getD (op.party - 1) 0 = op.outcome)) =
      (ndindex (outs I.scenario)).filter fun a => decide (∀ q ∈ C, a.getD q 0 = o q) := by
    apply List.filter_congr
    intro a _
    rw [decide_eq_decide]
    constructor
    · intro hh q hq
      obtain ⟨op, hop, rfl⟩ := List.mem_map.1 hq
      rw [hh op hop, hev.outcome op hop]
    · intro hh op hop
      rw [hh _ (List.mem_map.2 ⟨op, hop, rfl⟩), hev.outcome op hop]
  rw [hfil]
  refine Eq.trans ?_ h.symm
  -- bring the copies to the front
  have hone' := Knowable.oneCopy_iff.1 hone
  have hk : ∀ s, ∃ k, (s < I.scenario.nSources → 1 ≤ k ∧ k ≤ max (I.scenario.level s) 1 ∧ ∀ op ∈ e, op.copies.getD s 0 ≠ 0 → op.copies.getD s 0 = k) := by
    intro s
    by_cases hs : s < I.scenario.nSources
    · by_cases hex : ∃ op ∈ e, op.copies.getD s 0 ≠ 0
      · obtain ⟨op, hop, h0⟩ := hex
        have := Knowable.copies_getD (hval op hop) hs
        exact ⟨op.copies.getD s 0, fun _ => ⟨by omega, this, fun op' hop' h0' => hone' s hs op' hop' op hop h0' h0⟩⟩
      · push Not at hex
        exact ⟨1, fun _ => ⟨le_refl _, by omega, fun op hop h0 => absurd (hex op hop) h0⟩⟩
    · exact ⟨0, fun h => absurd h hs⟩
  choose k hk using hk
  have hg : Relabelling I.scenario (swapTo k) := swapTo_relabelling fun s hs => ⟨(hk s hs).1, (hk s hs).2.1⟩
  have hmap : e.map (Verif.Symmetry.act (swapTo k)) = C.map (orig I (fun p => x'.getD p 0) o) := by
    show _ = (e.map fun op => op.party - 1).map _
    rw [List.map_map]
    apply List.map_congr_left
    intro op hop
    have hv := hval op hop
    have hset : op.setting = (ndindex (I.dims (op.party - 1))).idxOf (x'.getD (op.party - 1) 0 :: (I.parents (op.party - 1)).map o) := by
      have h1 := hev.setting op hop
      rw [decodeSetting_eq, ← hxx op hop] at h1
      obtain ⟨h2, h3⟩ := List.getElem?_eq_some_iff.1 h1
      rw [← h3, List.Nodup.idxOf_getElem (nodup_ndindex _)]
    have hcop : op.copies.mapIdx (swapTo k) = (List.range I.scenario.nSources).map fun s => if I.scenario.hyp s (op.party - 1) then 1 else 0 := by
      apply List.ext_getElem (by simp [hv.copies_len])
      intro s h1 h2
      have hs : s < op.copies.length := by simpa using h1
      have hs' : s < I.scenario.nSources := by rw [← hv.copies_len]; exact hs
      have hc := hv.copies_ok s hs
      rw [List.getElem_mapIdx, List.getElem_map, List.getElem_range]
      have hgd : op.copies.getD s 0 = op.copies[s] := List.getD_eq_getElem _ _ hs
      by_cases hh : I.scenario.hyp s (op.party - 1) = true
      · rw [if_pos hh] at hc ⊢
        have := (hk s hs').2.2 op hop (by rw [hgd]; omega)
        rw [hgd] at this
        unfold swapTo
        rw [if_pos this]
      · rw [if_neg hh] at hc ⊢
        rw [hc]
        exact (hg s hs').1
    have hpar : op.party = op.party - 1 + 1 := by have := hv.party_pos; omega
    show (⟨op.party, op.copies.mapIdx (swapTo k), op.setting, op.outcome⟩ : Op) = ⟨op.party - 1 + 1, _, _, _⟩
    rw [hcop, ← hset, hev.outcome op hop, ← hpar]
  rw [← T.symmetric _ hg e (joint_single hval hnd hone), hmap]

/-- The full events of the original network. -/
theorem orig_original {a x : List Nat} (ha : a ∈ ndindex (outs I.scenario)) (hx : x ∈ ndindex (ins I.scenario I.observed)) :
    Original I a x ((List.range I.scenario.nParties).map (orig I (fun p => x.getD p 0) fun p => a.getD p 0)) := by
  have hxr : ∀ p < I.scenario.nParties, x.getD p 0 < I.observed.priv p := by
    intro p hp
    have := mem_ndindex.1 hx
    have hl : x.length = I.scenario.nParties := by simpa [ins] using this.1
    have h2 := this.2 p (by simpa [ins] using hp) (by omega)
    rw [List.getD_eq_getElem _ _ (by omega)]
    simpa [ins] using h2
  have har := (mem_outs.1 ha).2
  have hpo : ∀ p, ∀ q ∈ I.parents p, a.getD q 0 < I.scenario.outcomes q := fun p q hq => har q (EndToEnd.parents_lt hq)
  refine ⟨?_, ?_, ?_, ?_, ?_⟩
  · rw [List.map_map]; rfl
  · intro op hop
    obtain ⟨p, hp, rfl⟩ := List.mem_map.1 hop
    rw [List.mem_range] at hp
    exact orig_valid hp (hxr p hp) (hpo p) (har p hp)
  · intro op hop c hc
    obtain ⟨p, hp, rfl⟩ := List.mem_map.1 hop
    obtain ⟨s, _, rfl⟩ := List.mem_map.1 hc
    split <;> omega
  · intro op hop
    obtain ⟨p, hp, rfl⟩ := List.mem_map.1 hop
    rfl
  · intro op hop
    obtain ⟨p, hp, rfl⟩ := List.mem_map.1 hop
    rw [List.mem_range] at hp
    exact orig_decode (x := fun p => x.getD p 0) (o := fun p => a.getD p 0) (hxr p hp) (hpo p)

theorem sum_cast [IsStrictOrderedRing F] (l : List (List Nat)) (f : List Nat → Rat) : (((l.map f).sum : Rat) : F) = (l.map fun t => ((f t : Rat) : F)).sum := by
  induction l with
  | nil => simp
  | cons t l ih => simp [ih]

theorem InflatedTheory.atomMarginal_sound [IsStrictOrderedRing F] (hI : I.Accepted) {P : List Nat → Rat} (hP : T.Generates fun t => ((P t : Rat) : F)) {a : Atom}
    (ha : GoodRanks I.scenario a) (hk : I.knowable a = true) : ∃ v, I.atomMarginal P a = some v ∧ (v : F) = T.event a := by
  obtain ⟨x, o, x', hone, hnd, hev, hx', hxx, hm⟩ := atomMarginal_explicit hI P ha hk
  refine ⟨_, hm, ?_⟩
  rw [← hI.ins_eq] at hx'
  have h := T.event_knowable hI (I.operators a) (operators_valid a) hone hnd x o hev x' hx' hxx
  rw [sum_cast]
  refine Eq.trans ?_ h.symm
  rw [hI.outs_eq]
  congr 1
  apply List.map_congr_left
  intro b hb
  have hb' : b ∈ ndindex (outs I.scenario) := by rw [hI.outs_eq]; exact (List.mem_filter.1 hb).1
  exact hP b hb' x' hx' _ (orig_original hb' hx')

/-- The values of `set_distribution` are the theory's. -/
theorem InflatedTheory.distributionValues_sound [IsStrictOrderedRing F] (hI : I.Accepted) {P : List Nat → Rat} (hP : T.Generates fun t => ((P t : Rat) : F)) :
    ∃ vals, I.distributionValues P = some vals ∧ ∀ t ∈ vals, ∃ x, t.2 = some x ∧ valF T.event t.1 = ((x : Rat) : F) := by
  unfold Input.distributionValues
  have hg : ∀ a ∈ I.atomicFactors.filter I.knowable, GoodRanks I.scenario a ∧ I.knowable a = true := by
    intro a ha
    rw [List.mem_filter] at ha
    exact ⟨atomicFactors_good hI a ha.1, ha.2⟩
  generalize I.atomicFactors.filter I.knowable = l at hg
  induction l with
  | nil => exact ⟨[], rfl, by simp⟩
  | cons a l ih =>
    obtain ⟨vals, h1, h2⟩ := ih fun b hb => hg b (List.mem_cons_of_mem _ hb)
    obtain ⟨g1, g2⟩ := hg a (List.mem_cons_self ..)
    obtain ⟨v, e1, e2⟩ := T.atomMarginal_sound hI hP g1 g2
    refine ⟨([a], some v) :: vals, ?_, ?_⟩
    · rw [List.mapM_cons, h1, e1]
      rfl
    · intro t ht
      rcases List.mem_cons.1 ht with rfl | ht
      · exact ⟨v, rfl, by rw [e2]; simp [valF]⟩
      · exact h2 t ht

end Verif.Theory
