import Verif.Physical.Members
import Verif.Generate.Props
/-!
C69: the physical generating sets.
-/
namespace Verif.Physical
open Verif.Common Verif.Canon Verif.Canon.Spec Verif.Scenario Verif.Moment Verif.MomentMatrix Verif.SymMM Verif.SdpRepr Verif.SdpEnd Verif.SdpNames Verif.Generate
open Verif.Columns (partyOf Same)
open Verif.State (Dict Mon)
open Verif.EndToEnd (Input CausalModel WellFormed)

variable {I : Input}

theorem together_symm {x y : Nat} (h : Together I x y) : Together I y x := by
  have H := operatorList I
  refine ⟨by rw [H.nc_symm]; exact h.1, ?_⟩
  have h2 := h.2
  unfold orthomat Scenario.orthomat at h2 ⊢
  by_cases hx : x < I.scenario.sdpLexorder.length <;> by_cases hy : y < I.scenario.sdpLexorder.length
  · have e : orthomat I x y = true ↔ orthomat I y x = true := by
      have hx' : x < nOps I := by simpa [Scenario.sdpLexorder, nOps] using hx
      have hy' : y < nOps I := by simpa [Scenario.sdpLexorder, nOps] using hy
      rw [H.ortho_iff x y hx' hy', H.ortho_iff y x hy' hx']
      constructor <;> rintro (h | h | ⟨h, h'⟩) <;> first | exact .inr (.inl h) | exact .inl h | exact .inr (.inr ⟨h.symm, h'.symm⟩)
    have h3 : orthomat I x y = false := h.2
    rw [← Bool.not_eq_true, e, Bool.not_eq_true] at h3
    exact h3
  all_goals rw [if_neg (by omega)]

instance : Std.Symm (Together I) := ⟨fun _ _ => together_symm⟩

section
variable {maxLen : Nat} {caps : List (Option Nat)} {m : List Nat}

theorem PhysicalWord.inRange (h : PhysicalWord I maxLen caps m) : InRange I m := by
  intro x hx
  obtain ⟨r, rfl, hr⟩ := allowed_rank (h.letters x hx)
  unfold nOps
  omega

theorem PhysicalWord.commuting (h : PhysicalWord I maxLen caps m) : ∀ a ∈ m, ∀ b ∈ m, notcomm I a b = false := by
  intro a ha b hb
  rcases eq_or_ne a b with rfl | hne
  · exact (operatorList I).nc_diag a
  · exact (h.together.forall ha hb hne).1

theorem PhysicalWord.reduced (h : PhysicalWord I maxLen caps m) : Reduced (notcomm I) (orthomat I) m := by
  intro u a b v e
  have hp := e.perm
  have h1 : m.Pairwise fun x y => Together I x y ∧ x ≠ y := h.together.and (h.sorted.imp fun h => Nat.ne_of_lt h)
  have h2 : (u ++ a :: b :: v).Pairwise fun x y => Together I x y ∧ x ≠ y :=
    (hp.pairwise_iff fun h => ⟨together_symm h.1, h.2.symm⟩).1 h1
  rw [List.pairwise_append, List.pairwise_cons] at h2
  have h3 := h2.2.1.1 b (by simp)
  exact ⟨h3.2, h3.1.2, (together_symm h3.1).2⟩

theorem ascending_of_sorted {l : List Nat} (h : l.Pairwise (· < ·)) : ascending l = l :=
  (ascending_perm l).eq_of_pairwise (le := (· ≤ ·)) (fun _ _ _ _ => Nat.le_antisymm) (ascending_sorted l) (h.imp Nat.le_of_lt)

theorem PhysicalWord.canonical (h : PhysicalWord I maxLen caps m) (commuting : Bool) (hc : commuting = true → ∀ a b, notcomm I a b = false) (flag : Bool) :
    toCanonical (notcomm I) (orthomat I) commuting flag m = m := by
  rw [canonAny h.reduced hc flag, ← canonAny (commuting := false) (om := orthomat I) h.reduced (by simp) true, ← C05_commuting_shortcut_agrees _ _ _ _ h.commuting]
  unfold toCanonical
  split
  · rfl
  · simp only [if_true]
    exact ascending_of_sorted h.sorted

end

variable (hout : HasOutcomes I) (maxLen : Nat) (caps : List (Option Nat))
include hout

/-- **C69, the columns**: the generating set `"physicalN"` consists exactly of the products of outcomes of compatible measurements (pairwise commuting, no measurement twice), within
`max_monomial_length` and the levels of the parties; each once, written in increasing order. -/
theorem C69_physical_columns (m : List Nat) : m ∈ physicalCols I maxLen caps ↔ PhysicalWord I maxLen caps m := mem_physicalCols hout maxLen caps m

/-- **C69, suitable for the moment matrix**: the columns are distinct, in canonical form and made of operators of the problem. -/
theorem C69_columns_suit_moment_matrix : ColsOk (nOps I) (notcomm I) (orthomat I) (allCommute I) (physicalCols I maxLen caps) where
  lt := fun m hm => ((mem_physicalCols hout maxLen caps m).1 hm).inRange
  nodup := nodup_physicalCols hout maxLen caps
  comm := fun h => commuting_none h
  canon := fun m hm => ((mem_physicalCols hout maxLen caps m).1 hm).canonical _ (fun h => commuting_none h) true

/-- The unit is a column. -/
theorem C69_unit : [] ∈ physicalCols I maxLen caps :=
  (mem_physicalCols hout maxLen caps []).2 ⟨.nil, by simp, .nil, ⟨.inr (by simp), by simp⟩⟩

/-- **C69, no operator is missing and none appears twice**: every product of different pairwise commuting operators within the levels that does not vanish is the same operator as exactly
one column. -/
theorem C69_every_product {w : List Nat} (hnd : w.Nodup) (hal : ∀ x ∈ w, ∃ p, Columns.Allowed I.scenario (cardinalities I) p x) (hc : ∀ x ∈ w, ∀ y ∈ w, notcomm I x y = false)
    (hw : Within I maxLen caps w) (h0 : ¬ Same I.scenario I.D I.anyNonclassical w [0]) :
    ∃ m ∈ physicalCols I maxLen caps, Same I.scenario I.D I.anyNonclassical w m ∧
      ∀ m' ∈ physicalCols I maxLen caps, Same I.scenario I.D I.anyNonclassical w m' → m' = m := by
  have hp := (ascending_perm w).symm
  have hr : ∀ x ∈ w, x < nOps I := by
    intro x hx
    obtain ⟨r, rfl, hr⟩ := allowed_rank (hal x hx)
    unfold nOps
    omega
  have hsame : Same I.scenario I.D I.anyNonclassical w (ascending w) := OpEq.of_commEq (CommEq.of_perm hp fun a ha b hb => hc a ha b hb)
  have hword : PhysicalWord I maxLen caps (ascending w) := by
    have hnd' : (ascending w).Nodup := hp.nodup_iff.1 hnd
    refine ⟨?_, fun x hx => hal x (hp.mem_iff.2 hx), ?_, ⟨?_, ?_⟩⟩
    · exact ((ascending_sorted w).and hnd').imp fun h => Nat.lt_of_le_of_ne h.1 h.2
    · rw [List.pairwise_iff_forall_sublist]
      intro x y hs
      have hx : x ∈ w := hp.mem_iff.2 (hs.subset (by simp))
      have hy : y ∈ w := hp.mem_iff.2 (hs.subset (by simp))
      refine ⟨hc x hx y hy, ?_⟩
      rcases ho : orthomat I x y with _ | _
      · rfl
      · exfalso
        obtain ⟨rest, hrest⟩ := hs.exists_perm_append
        have hp2 : w.Perm (x :: y :: rest) := hp.trans hrest
        refine h0 (OpEq.trans (OpEq.of_commEq (CommEq.of_perm hp2 fun a ha b hb => hc a ha b hb)) ?_)
        exact OpEq.zero [] x y rest (fun z hz => hr z (hp2.mem_iff.2 (by simpa using hz))) ho
    · rw [← hp.length_eq]; exact hw.length
    · intro p c hpc
      rw [← (hp.map (partyOf I.scenario)).count_eq]
      exact hw.party p c hpc
  refine ⟨_, (mem_physicalCols hout maxLen caps _).2 hword, hsame, ?_⟩
  intro m' hm' hs'
  have hword' := (mem_physicalCols hout maxLen caps m').1 hm'
  have := (C03_canonical_decides_operator_equality (operatorList I) m' (ascending w) hword'.inRange hword.inRange).2 (OpEq.trans (OpEq.symm hs') hsame)
  rwa [hword'.canonical false (by simp), hword.canonical false (by simp)] at this

/-- **C69, relabelling copies** maps the generating set to itself. -/
theorem C69_closed : ClosedUnder I (physicalCols I maxLen caps) := by
  intro r hr m hm
  have hw := (mem_physicalCols hout maxLen caps m).1 hm
  have hsd := symData I
  have hpar : ∀ x ∈ m, partyOf I.scenario (r.getD x x) = partyOf I.scenario x := by
    intro x hx
    obtain ⟨p, hp⟩ := hw.letters x hx
    have e : ∀ {y}, Columns.Allowed I.scenario (cardinalities I) p y → partyOf I.scenario y = p := by
      rintro y ⟨o, h1, h2, _⟩
      unfold partyOf
      rw [h1]
      simp [h2]
    rw [e hp, e (allowed_image hr hp)]
  have hinj : (mapW r m).Nodup := by
    unfold mapW
    refine List.Nodup.map_on ?_ (hw.sorted.imp fun h => Nat.ne_of_lt h)
    intro x hx y hy e
    have hperm := hsd.group.perm r hr
    have hl : r.length = nOps I := by rw [hperm.length_eq, List.length_range]
    have hx' : x < r.length := by rw [hl]; exact hw.inRange x hx
    have hy' : y < r.length := by rw [hl]; exact hw.inRange y hy
    rw [List.getD_eq_getElem _ _ hx', List.getD_eq_getElem _ _ hy'] at e
    exact (hperm.nodup_iff.2 List.nodup_range).getElem_inj_iff.1 e
  have hp : (mapW r m).Perm (ascending (mapW r m)) := (ascending_perm _).symm
  have hcomm : ∀ a ∈ mapW r m, ∀ b ∈ mapW r m, notcomm I a b = false := by
    intro a ha b hb
    obtain ⟨x, hx, rfl⟩ := List.mem_map.1 ha
    obtain ⟨y, hy, rfl⟩ := List.mem_map.1 hb
    rw [hsd.comm r hr]
    exact hw.commuting x hx y hy
  refine ⟨ascending (mapW r m), (mem_physicalCols hout maxLen caps _).2 ⟨?_, ?_, ?_, ⟨?_, ?_⟩⟩, CommEq.of_perm hp fun a ha b hb => hcomm a ha b hb⟩
  · exact ((ascending_sorted _).and (hp.nodup_iff.1 hinj)).imp fun h => Nat.lt_of_le_of_ne h.1 h.2
  · intro a ha
    obtain ⟨x, hx, rfl⟩ := List.mem_map.1 (hp.mem_iff.2 ha)
    obtain ⟨p, hp⟩ := hw.letters x hx
    exact ⟨p, allowed_image hr hp⟩
  · refine (hp.pairwise_iff fun h => together_symm h).1 ?_
    unfold mapW
    rw [List.pairwise_map]
    exact hw.together.imp fun h => ⟨by rw [hsd.comm r hr]; exact h.1, by rw [hsd.ortho r hr]; exact h.2⟩
  · rw [← hp.length_eq]
    unfold mapW
    rw [List.length_map]
    exact hw.within.length
  · intro p c hpc
    rw [← (hp.map (partyOf I.scenario)).count_eq]
    unfold mapW
    rw [List.map_map, List.map_congr_left (g := partyOf I.scenario) (by intro x hx; exact hpar x hx)]
    exact hw.within.party p c hpc

omit hout in
/-- **C69, order**: the columns are listed by length and, within a length, in dictionary order. -/
theorem C69_order : (physicalCols I maxLen caps).Pairwise fun m m' => m.length < m'.length ∨ (m.length = m'.length ∧ LexLE m m') := by
  have hiff : ∀ a b, Columns.colLe.lexLe a b = true ↔ LexLE a b := by
    intro a
    induction a with
    | nil => intro b; simp [Columns.colLe.lexLe, LexLE]
    | cons x a ih =>
      intro b
      cases b with
      | nil => simp [Columns.colLe.lexLe, LexLE]
      | cons y b => simp [Columns.colLe.lexLe, LexLE, ih]
  have htot : ∀ a b : List Nat, LexLE a b ∨ LexLE b a := by
    intro a
    induction a with
    | nil => intro b; exact .inl trivial
    | cons x a ih =>
      intro b
      cases b with
      | nil => exact .inr trivial
      | cons y b =>
        rcases Nat.lt_trichotomy x y with h | h | h
        · exact .inl (.inl h)
        · rcases ih b with h' | h'
          · exact .inl (.inr ⟨h, h'⟩)
          · exact .inr (.inr ⟨h.symm, h'⟩)
        · exact .inr (.inl h)
  have htr : ∀ a b c : List Nat, LexLE a b → LexLE b c → LexLE a c := by
    intro a
    induction a with
    | nil => intro b c _ _; trivial
    | cons x a ih =>
      intro b c h1 h2
      cases b with
      | nil => exact h1.elim
      | cons y b =>
        cases c with
        | nil => exact h2.elim
        | cons z c =>
          rcases h1 with h1 | ⟨rfl, h1⟩ <;> rcases h2 with h2 | ⟨rfl, h2⟩
          · exact .inl (by omega)
          · exact .inl h1
          · exact .inl h2
          · exact .inr ⟨rfl, ih b c h1 h2⟩
  have hcol : ∀ a b, Columns.colLe a b = true ↔ a.length < b.length ∨ (a.length = b.length ∧ LexLE a b) := by
    intro a b
    unfold Columns.colLe
    simp [hiff]
  unfold physicalCols
  refine (sortBy_sorted Columns.colLe ?_ ?_ _).imp fun h => (hcol _ _).1 h
  · intro a b
    rw [hcol, hcol]
    rcases Nat.lt_trichotomy a.length b.length with h | h | h
    · exact .inl (.inl h)
    · exact (htot a b).imp (fun h' => .inr ⟨h, h'⟩) (fun h' => .inr ⟨h.symm, h'⟩)
    · exact .inr (.inl h)
  · intro a b c h1 h2
    rw [hcol] at h1 h2 ⊢
    rcases h1 with h1 | ⟨e1, h1⟩ <;> rcases h2 with h2 | ⟨e2, h2⟩
    · exact .inl (by omega)
    · exact .inl (by omega)
    · exact .inl (by omega)
    · exact .inr ⟨e1.trans e2, htr _ _ _ h1 h2⟩

/-- **C69, relaxations**: `generate_relaxation("physicalN", max_monomial_length)` returns, for every problem, level and state of the memoised representatives. -/
theorem C69_relaxation_generated {ch : Choice} (hch : UsualChoice ch I) (name : Atom → String) (hS : copiesOf I.scenario ≤ 254) (ho : TwoOutcomes I) :
    ∃ B, build I (physicalCols I maxLen caps) ch name = some B :=
  build_succeeds hch name hS (C69_columns_suit_moment_matrix hout maxLen caps) (C69_closed hout maxLen caps) ho

omit hout in
theorem hasOutcomes (hI : I.Accepted) : HasOutcomes I := by
  intro p hp
  have hp : p < I.D.names.length := hp
  show 1 ≤ I.outcomes.getD p 0
  rw [List.getD_eq_getElem _ _ (by rw [hI.outcomes_length]; exact hp)]
  exact hI.outcomes_pos _ (List.getElem_mem _)

omit hout in
/-- **C69, distributions**: a distribution that a classical model of the network produces is never excluded by a physical relaxation, from the problem to the solver. -/
theorem C69_distribution_never_excluded {Λ : Type} [Fintype Λ] {ch : Choice} (hI : I.Accepted) (hD : WellFormed I.D) (hs : SdpEnd.HasSources I.D)
    (M : CausalModel I.D I.outcomes I.priv Λ ℝ) {P : List Nat → Rat} (hP : M.Generates fun t => ((P t : Rat) : ℝ)) (hch : UsualChoice ch I) (hch' : ch.Computed I)
    (name : Atom → String) (hS : copiesOf I.scenario ≤ 254) (hnet : I.isNetwork = true) (solver : SdpState.Args → SdpState.SolverOut) :
    ∃ B, build I (physicalCols I maxLen caps) ch name = some B ∧
      ∃ c, setDistribution I B P false false = some c ∧ SdpState.Ok B.env solver [c] ∧
        ∃ a, SdpState.solverArgs B.env (SdpState.run B.env solver [c]) = some a ∧
          ∀ fl : SdpSolver.Flags (Option Mon), fl.nonneg = false → (fl.feas = true → fl.Fresh (solverInput (physicalCols I maxLen caps).length B a)) →
            ∃ Q : SdpSolver.Prep (Option Mon) ℝ (physicalCols I maxLen caps).length, SdpSolver.prep fl (solverInput (physicalCols I maxLen caps).length B a) = some Q ∧
              (∃ x G, Q.Primal false x G ∧ Q.primalValue x = 0) ∧
              ∀ (Z : SdpSolver.Mat (physicalCols I maxLen caps).length ℝ) (mi me : Nat → ℝ), Q.Dual false Z mi me → 0 ≤ Q.dualValue fl.feas Z mi me := by
  have hout := hasOutcomes hI
  obtain ⟨B, hB⟩ := C69_relaxation_generated hout maxLen caps hch name hS (.inl hnet)
  exact ⟨B, hB, C54_distribution_never_excluded hI hD hs M hP ⟨C69_columns_suit_moment_matrix hout maxLen caps, hS, hch', hB, equalitiesProper_of_network hnet _ _⟩ (C69_unit hout maxLen caps) solver⟩

end Verif.Physical
