import Verif.Sanitise.Read
import Verif.Sanitise.Relabel
import Verif.EndToEnd.Factor
import Verif.Names.Brackets
/-!
C60: every accepted way of writing a moment denotes that moment.
-/
namespace Verif.Sanitise
open Verif.Common Verif.Scenario Verif.Orbits Verif.Components Verif.Moment Verif.State Verif.Text Verif.Names Verif.EndToEnd
open Verif.Symmetry (lexorderSymmetries Relabelling inducedRow)
open Verif.SdpEnd (copiesOf capacity_of_copies)

variable {I : Input} {names order : List Str}

/-! ### Names -/

/-- The name of a moment of the table denotes the moment, now and later. -/
theorem C60_name_reads_back (hI : I.Accepted) (h : NamesOk I names) {s s' : Session} (hr : Reachable I names order s) (hl : Later I names order s s') {m : Mon} (hm : m ∈ s.created) :
    sanitise I names order s' (.name (momentText I names m)) = some (s', m) := by
  obtain ⟨i1, i2⟩ := reachable_inv hI h hr
  obtain ⟨l1, -, l3, -⟩ := later_inv h i1 i2 hl
  simp only [sanitise]
  rw [l1.text m (l3 m hm)]

/-- Different moments of the table have different names. -/
theorem C60_names_differ (hI : I.Accepted) (h : NamesOk I names) {s : Session} (hr : Reachable I names order s) {m m' : Mon} (hm : m ∈ s.created) (hm' : m' ∈ s.created)
    (e : momentText I names m = momentText I names m') : m = m' := by
  have h1 := C60_name_reads_back hI h hr .refl hm
  have h2 := C60_name_reads_back hI h hr .refl hm'
  rw [e, h2] at h1
  exact (Prod.mk.inj (Option.some.inj h1)).2.symm

/-- The moments of the program (`monomials`) are in the table of every state. -/
theorem C60_monomials_in_table (hI : I.Accepted) (h : NamesOk I names) {s : Session} (hr : Reachable I names order s) {m : Mon} (hm : m ∈ I.monomials) : m ∈ s.created := by
  obtain ⟨g1, -, -, g4⟩ := columns_inv h I.columns (columns_length hI) (start) start_inv
  obtain ⟨-, -, l3, -⟩ := later_inv (order := order) h g1 (foldl_sym I.columns _ start_sym) hr
  obtain ⟨v, -, hv, -⟩ := forall2_mem_right g4 hm
  exact l3 m hv

/-- Whatever was read, except an object that is itself a moment, has a name that denotes it from then on. -/
theorem C60_result_has_name (hI : I.Accepted) (h : NamesOk I names) {s s1 s2 : Session} (hr : Reachable I names order s) {f : Form}
    (hf : ∀ a, f = .atom a → ∃ m' ∈ s.created, a ∈ m') (hne : ∀ m, f ≠ .moment m) {m : Mon} (e : sanitise I names order s f = some (s1, m)) (hl : Later I names order s1 s2) :
    sanitise I names order s2 (.name (momentText I names m)) = some (s2, m) := by
  obtain ⟨i1, i2⟩ := reachable_inv hI h hr
  have hr1 : Reachable I names order s1 := hr.tail (.read hf e)
  obtain ⟨-, r2, -, -⟩ := sanitise_inv h i1 hf i2 e
  rcases r2 hne with hm | rfl
  · exact C60_name_reads_back hI h hr1 hl hm
  · obtain ⟨j1, -⟩ := reachable_inv hI h (hr1.trans hl)
    simp only [sanitise]
    rw [momentText_nil, j1.one]

/-! ### Lists of operators -/

/-- The integer type of the problem can hold the number of every operator. -/
def RanksFit (S : Scenario) : Prop := S.lexorder.length ≤ dtypeWidth S

theorem readRanks_fit (hS : RanksFit I.scenario) {s : Session} {a : List Nat} (ha : ∀ x ∈ a, x < I.scenario.lexorder.length) :
    readRanks I names s a = some (monomial I names s a) := by
  unfold readRanks
  rw [wrap_small hS ha, if_pos]
  rw [List.all_eq_true]
  intro x hx
  simpa using ha x hx

section Value
variable {S : Scenario} {O : Observed} {Λ F : Type} [Fintype Λ] [Field F] [LinearOrder F] [IsStrictOrderedRing F]

theorem probability_nil (M : ClassicalModel S O Λ F) : probability M [] = 1 := by
  unfold probability
  rw [M.vec_boolKey List.nodup_nil (by simp)]
  unfold ClassicalModel.event
  simp only [List.map_nil, List.prod_nil]
  exact expect_one _ fun c => M.weight_sum c

theorem atoms_value (M : ClassicalModel S O Λ F) {c : Cache} (hc : CacheInv S.lexorder.length (lexorderSymmetries S) c) {fs : List (List Nat)} {m : List Atom}
    (h : List.Forall₂ (fun f m => c.lookup (boolKey S.lexorder.length f) = some m) (fs.filter fun f => !f.isEmpty) m) :
    (m.map (probability M)).prod = (fs.map (probability M)).prod := by
  induction fs generalizing m with
  | nil =>
    cases h
    rfl
  | cons f fs ih =>
    by_cases he : f.isEmpty = true
    · rw [List.filter_cons_of_neg (by simp [he])] at h
      have : f = [] := by simpa using he
      rw [ih h, List.map_cons, List.prod_cons, this, probability_nil, one_mul]
    · rw [List.filter_cons_of_pos (by simpa using he)] at h
      cases h with
      | @cons _ a _ m h1 h2 =>
        rw [List.map_cons, List.prod_cons, List.map_cons, List.prod_cons, ih h2]
        congr 1
        unfold probability
        exact (M.vec_invariant _ _ (by simp [boolKey]) (hc.orbit _ _ h1)).symm

theorem monomialOf_value (M : ClassicalModel S O Λ F) (hS : copiesOf S ≤ 254) {c : Cache} (hc : CacheInv S.lexorder.length (lexorderSymmetries S) c) {a : List Nat}
    (ha : ∀ x ∈ a, x < S.lexorder.length) : valueOf M (monomialOf S c a).2 = probability M a := by
  have main : ∀ {a : List Nat} {c : Cache}, CacheInv S.lexorder.length (lexorderSymmetries S) c → a.Nodup → (∀ x ∈ a, x < S.lexorder.length) →
      valueOf M (monomialOf S c a).2 = probability M a := by
    intro a c hc hnd ha
    have hlt : ∀ f ∈ factorize S a, ∀ x ∈ f, x < S.lexorder.length := fun f hf x hx => ha x ((factorize_sublist hf).subset hx)
    obtain ⟨i1, -, i3⟩ := atomsOf_inv (factorize S a) c hc hlt
    have hv := atoms_value M i1 i3
    have hp : (sortBy atomLe (atomsOf S c (factorize S a)).2).Perm (atomsOf S c (factorize S a)).2 := sortBy_perm _ _
    show ((sortBy atomLe (atomsOf S c (factorize S a)).2).map (probability M)).prod = _
    rw [(hp.map _).prod_eq, hv]
    unfold probability
    rw [M.vec_boolKey hnd ha, M.event_factorize a ha (capacity_of_copies S hS ha)]
    congr 1
    apply List.map_congr_left
    intro f hf
    exact M.vec_boolKey (hnd.sublist (factorize_sublist hf)) (hlt f hf)
  have hid : List.range S.lexorder.length ∈ lexorderSymmetries S := List.mem_of_mem_head? (Verif.Symmetry.C14_identity_first S)
  have hd : ∀ x ∈ a.dedup, x < S.lexorder.length := fun x hx => ha x (List.mem_dedup.1 hx)
  have hlt : ∀ f ∈ factorize S a, ∀ x ∈ f, x < S.lexorder.length := fun f hf x hx => ha x ((factorize_sublist hf).subset hx)
  obtain ⟨i1, -, -⟩ := atomsOf_inv (factorize S a) c hc hlt
  have key := monomialOf_relabel hid hS ha hd (by
    intro i hi
    rw [List.mem_dedup, List.getD_eq_getElem _ _ (by simpa using hi), List.getElem_range]) hc (c' := (monomialOf S c a).1) i1 (.refl _)
  rw [← key, main (c := (monomialOf S c a).1) i1 a.nodup_dedup hd]
  unfold probability
  congr 1
  apply boolKey_ext
  intro i _
  exact List.mem_dedup

end Value

/-- A list of operators, given by their numbers, denotes a moment whose value in every classical model of the network is the probability that all the operators happen. -/
theorem C60_ranks_value_partial (hI : I.Accepted) (h : NamesOk I names) (hfit : RanksFit I.scenario) (hS : copiesOf I.scenario ≤ 254) {s : Session} (hr : Reachable I names order s)
    {a : List Nat} (ha : ∀ x ∈ a, x < I.scenario.lexorder.length) {Λ F : Type} [Fintype Λ] [Field F] [LinearOrder F] [IsStrictOrderedRing F]
    (M : ClassicalModel I.scenario I.observed Λ F) :
    ∃ s' m, sanitise I names order s (.array1 a) = some (s', m) ∧ valueOf M m = probability M a :=
  ⟨_, _, readRanks_fit hfit ha, monomialOf_value M hS (reachable_inv hI h hr).1.cache ha⟩

/-- Two lists of operators that are equal as sets up to a relabelling of the copies of the sources denote the same moment, whenever they are read. -/
theorem C60_relabelled_ranks_partial (hI : I.Accepted) (h : NamesOk I names) (hfit : RanksFit I.scenario) (hS : copiesOf I.scenario ≤ 254) {s s1 s2 : Session}
    (hr : Reachable I names order s) {a b : List Nat} (ha : ∀ x ∈ a, x < I.scenario.lexorder.length) (hb : ∀ x ∈ b, x < I.scenario.lexorder.length)
    (hab : Relabelled I.scenario a b) {m : Mon} (e : sanitise I names order s (.array1 a) = some (s1, m)) (hl : Later I names order s1 s2) :
    ∃ s3, sanitise I names order s2 (.array1 b) = some (s3, m) := by
  obtain ⟨i1, i2⟩ := reachable_inv hI h hr
  have hr1 : Reachable I names order s1 := hr.tail (.read (fun a h => by cases h) e)
  obtain ⟨j1, j2⟩ := reachable_inv hI h hr1
  obtain ⟨k1, -, -, k4⟩ := later_inv h j1 j2 hl
  have e' : some (monomial I names s a) = some (s1, m) := (readRanks_fit hfit ha).symm.trans e
  obtain ⟨-, -, -, -, mm⟩ := monomial_inv h i1 ha
  obtain ⟨g, hg, hgab⟩ := hab
  have hrow : inducedRow I.scenario g ∈ lexorderSymmetries I.scenario := (Verif.Symmetry.mem_symmetries I.scenario).2 ⟨g, hg, rfl⟩
  have hrel := monomialOf_relabel hrow hS ha hb (by
    intro i hi
    have hv := Verif.Symmetry.lex_valid I.scenario hi
    have hrowi : (inducedRow I.scenario g).getD i 0 = I.scenario.lexorder.idxOf (Verif.Symmetry.act g I.scenario.lexorder[i]) := by
      unfold inducedRow
      rw [List.getD_eq_getElem _ _ (by simpa using hi), List.getElem_map]
    have hm : Verif.Symmetry.act g I.scenario.lexorder[i] ∈ I.scenario.lexorder := (mem_lexorder I.scenario).2 (Verif.Symmetry.act_valid I.scenario hg hv)
    have hx := List.idxOf_lt_length_iff.2 hm
    have huniq : ∀ {i j : Nat} {op : Op}, I.scenario.lexorder[i]? = some op → I.scenario.lexorder[j]? = some op → i = j := by
      intro i j op h1 h2
      obtain ⟨a1, a2⟩ := List.getElem?_eq_some_iff.1 h1
      obtain ⟨b1, b2⟩ := List.getElem?_eq_some_iff.1 h2
      exact ((lexorder_nodup I.scenario).getElem_inj_iff).1 (a2.trans b2.symm)
    have h1 := hgab I.scenario.lexorder[i]
    rw [hrowi]
    constructor
    · intro hib
      obtain ⟨-, j, hja, hj⟩ := h1.1 ⟨i, hib, List.getElem?_eq_getElem hi⟩
      have : j = I.scenario.lexorder.idxOf (Verif.Symmetry.act g I.scenario.lexorder[i]) := huniq hj (by rw [List.getElem?_eq_getElem hx, List.getElem_idxOf])
      rwa [← this]
    · intro hia
      obtain ⟨j, hjb, hj⟩ := h1.2 ⟨hv, _, hia, by rw [List.getElem?_eq_getElem hx, List.getElem_idxOf]⟩
      have : j = i := huniq hj (List.getElem?_eq_getElem hi)
      rwa [← this]) i1.cache k1.cache (by
        rw [← mm, Option.some.inj e']
        exact k4)
  refine ⟨(monomial I names s2 b).1, ?_⟩
  have : readRanks I names s2 b = some (monomial I names s2 b) := readRanks_fit hfit hb
  show readRanks I names s2 b = _
  rw [this]
  have h2 : (monomial I names s2 b).2 = m := by
    have : (monomial I names s a).2 = m := by rw [Option.some.inj e']
    rw [← this]
    exact hrel
  rw [← h2]

/-- The operators of a column of the program denote the moment of the column. -/
theorem C60_column_ranks_partial (hI : I.Accepted) (h : NamesOk I names) (hfit : RanksFit I.scenario) (hS : copiesOf I.scenario ≤ 254) {s : Session}
    (hr : Reachable I names order s) : List.Forall₂ (fun v m => ∀ a : List Nat, (∀ i, i ∈ a ↔ v.getD i false = true) → ∃ s', sanitise I names order s (.array1 a) = some (s', m))
      I.columns I.monomials := by
  obtain ⟨g1, -, -, g4⟩ := columns_inv h I.columns (columns_length hI) (start) start_inv
  obtain ⟨l1, -, -, l4⟩ := later_inv (order := order) h g1 (foldl_sym I.columns _ start_sym) hr
  have hid : List.range I.scenario.lexorder.length ∈ lexorderSymmetries I.scenario := List.mem_of_mem_head? (Verif.Symmetry.C14_identity_first I.scenario)
  refine List.Forall₂.imp ?_ ((List.forall₂_and_left _ _).2 ⟨columns_length hI, g4⟩)
  rintro v m ⟨hv, -, c, hc, hm, hext⟩ a ha
  have hlt : ∀ x ∈ a, x < I.scenario.lexorder.length := by
    intro x hx
    by_contra hn
    have := (ha x).1 hx
    rw [List.getD_eq_default _ _ (by omega)] at this
    simp at this
  refine ⟨(monomial I names s a).1, ?_⟩
  show readRanks I names s a = _
  rw [readRanks_fit hfit hlt]
  have : (monomialOf I.scenario s.cache a).2 = (monomialOf I.scenario c (flatnonzero v)).2 :=
    monomialOf_relabel hid hS (flatnonzero_lt hv) hlt (by
      intro i hi
      rw [List.getD_eq_getElem _ _ (by simpa using hi), List.getElem_range, ha]
      unfold flatnonzero
      rw [List.mem_filter, List.mem_range]
      constructor
      · exact fun h => ⟨by rw [hv]; exact hi, h⟩
      · exact fun h => h.2) hc l1.cache (hext.trans l4)
  rw [← hm, ← this]
  rfl

/-- A two-dimensional array denotes the same moment as the list of the numbers of its rows. -/
theorem C60_rows_read_as_ranks {s : Session} {w : List Nat} {rows : List Op} (h : List.Forall₂ (fun r op => I.scenario.lexorder[r]? = some op) w rows) :
    sanitise I names order s (.array2 rows) = sanitise I names order s (.array1 w) := readRows_eq h

/-! ### Numbers -/

/-- The number 1 denotes the unit moment; other numbers further than 0.00001001 from 1 are rejected. -/
theorem C60_numbers {s : Session} (r : Rat) :
    sanitise I names order s (.number 1) = some (s, []) ∧ (|r - 1| > 1 / 100000000 + 1 / 100000 → sanitise I names order s (.number r) = none) := by
  refine ⟨?_, ?_⟩
  · have : isClose1 1 = true := by decide +kernel
    simp only [sanitise]
    rw [if_pos this]
  · intro h
    have : isClose1 r = false := decide_eq_false (not_le.2 h)
    simp only [sanitise]
    rw [this]
    rfl

end Verif.Sanitise
