import Verif.Sanitise.Session
import Verif.EndToEnd.Build
/-!
Reading moments keeps the table consistent; the different ways of writing a moment reduce to a list of ranks.
-/
namespace Verif.Sanitise
open Verif.Common Verif.Scenario Verif.Orbits Verif.Components Verif.Moment Verif.State Verif.Text Verif.Names Verif.EndToEnd
open Verif.Symmetry (lexorderSymmetries Relabelling)

variable {I : Input} {names order : List Str}

theorem readRanks_inv (h : NamesOk I names) {s s' : Session} (hi : Inv I names s) {a : List Nat} {m : Mon} (e : readRanks I names s a = some (s', m)) :
    Inv I names s' ∧ m ∈ s'.created ∧ (∀ m' ∈ s.created, m' ∈ s'.created) ∧ Extends s.cache s'.cache := by
  unfold readRanks at e
  split at e
  · rename_i hall
    have hlt : ∀ x ∈ wrap I.scenario a, x < I.scenario.lexorder.length := by
      intro x hx
      simpa using List.all_eq_true.1 hall x hx
    obtain ⟨m1, m2, m3, m4, -⟩ := monomial_inv h hi hlt
    have e := Option.some.inj e
    rw [e] at m1 m2 m3 m4
    exact ⟨m1, m2, m3, m4⟩
  · simp at e

theorem readRows_inv (h : NamesOk I names) {s s' : Session} (hi : Inv I names s) {rows : List Op} {m : Mon} (e : readRows I names s rows = some (s', m)) :
    Inv I names s' ∧ m ∈ s'.created ∧ (∀ m' ∈ s.created, m' ∈ s'.created) ∧ Extends s.cache s'.cache := by
  unfold readRows at e
  obtain ⟨w, -, e⟩ := Option.bind_eq_some_iff.1 e
  exact readRanks_inv h hi e

/-- Reading a moment keeps the table consistent; the moment is in the table afterwards, unless it is the unit moment or was given as an object. -/
theorem sanitise_inv (h : NamesOk I names) {s s' : Session} (hi : Inv I names s) {f : Form} {m : Mon} (hf : ∀ a, f = .atom a → ∃ m' ∈ s.created, a ∈ m')
    (hsym : ∀ e ∈ s.symbols, e.2 ∈ s.created ∨ e.2 = [])
    (e : sanitise I names order s f = some (s', m)) :
    Inv I names s' ∧ ((∀ m, f ≠ .moment m) → m ∈ s'.created ∨ m = []) ∧ (∀ m' ∈ s.created, m' ∈ s'.created) ∧ Extends s.cache s'.cache := by
  have same : ∀ {m' : Mon}, (m' ∈ s.created ∨ m' = []) → some (s, m') = some (s', m) →
      Inv I names s' ∧ ((∀ m, f ≠ .moment m) → m ∈ s'.created ∨ m = []) ∧ (∀ m' ∈ s.created, m' ∈ s'.created) ∧ Extends s.cache s'.cache := by
    intro m' hm e
    obtain ⟨rfl, rfl⟩ := Prod.mk.inj (Option.some.inj e)
    exact ⟨hi, fun _ => hm, fun _ hm => hm, .refl _⟩
  have viaRows : ∀ {rows : List Op}, readRows I names s rows = some (s', m) →
      Inv I names s' ∧ ((∀ m, f ≠ .moment m) → m ∈ s'.created ∨ m = []) ∧ (∀ m' ∈ s.created, m' ∈ s'.created) ∧ Extends s.cache s'.cache := by
    intro rows e
    obtain ⟨r1, r2, r3, r4⟩ := readRows_inv h hi e
    exact ⟨r1, fun _ => Or.inl r2, r3, r4⟩
  cases f with
  | moment m' =>
    obtain ⟨rfl, rfl⟩ := Prod.mk.inj (Option.some.inj e)
    exact ⟨hi, fun hne => absurd rfl (hne m'), fun _ hm => hm, .refl _⟩
  | atom a =>
    obtain ⟨m', hm', ham⟩ := hf a rfl
    obtain ⟨r1, r2, r3, r4⟩ := register_inv h hi (m := [a]) (by
      intro b hb
      rw [List.mem_singleton.1 hb]
      exact hi.atoms m' hm' a ham) rfl
    obtain ⟨rfl, rfl⟩ := Prod.mk.inj (Option.some.inj e)
    exact ⟨r1, fun _ => Or.inl r2, r3, by rw [r4]; exact .refl _⟩
  | array1 a =>
    obtain ⟨r1, r2, r3, r4⟩ := readRanks_inv h hi e
    exact ⟨r1, fun _ => Or.inl r2, r3, r4⟩
  | array2 rows => exact viaRows e
  | name t =>
    simp only [sanitise] at e
    split at e
    · rename_i m' ht
      exact same (hi.range t m' ht) e
    · obtain ⟨rows, -, e⟩ := Option.bind_eq_some_iff.1 e
      exact viaRows e
  | symbol l =>
    simp only [sanitise] at e
    split at e
    · rename_i p hp
      exact same (hsym p (List.mem_of_find?_eq_some hp)) e
    · split at e
      · rename_i m' ht
        split at ht
        · exact same (hi.range _ m' ht) e
        · simp at ht
      · obtain ⟨rows, -, e⟩ := Option.bind_eq_some_iff.1 e
        exact viaRows e
  | number r =>
    simp only [sanitise] at e
    split at e
    · exact same (Or.inr rfl) e
    · simp at e

/-- The entries of the table of symbols. -/
def SymInv (s : Session) : Prop := ∀ e ∈ s.symbols, e.2 ∈ s.created ∨ e.2 = []

theorem register_sym {s : Session} (hs : SymInv s) (m : Mon) : SymInv (register I names s m) := by
  unfold register
  split
  · exact hs
  · intro e he
    have he : e ∈ (m.map (symbolText I names), m) :: s.symbols := he
    show e.2 ∈ s.created ++ [m] ∨ e.2 = []
    rcases List.mem_cons.1 he with rfl | he
    · left; simp
    · rcases hs e he with h | h
      · left; simp [h]
      · exact Or.inr h

theorem monomial_sym {s : Session} (hs : SymInv s) (a : List Nat) : SymInv (monomial I names s a).1 := by
  show SymInv (register I names { s with cache := (monomialOf I.scenario s.cache a).1 } _)
  exact register_sym (s := { s with cache := (monomialOf I.scenario s.cache a).1 }) hs _

theorem sanitise_sym {s s' : Session} (hs : SymInv s) {f : Form} {m : Mon} (e : sanitise I names order s f = some (s', m)) : SymInv s' := by
  have viaRanks : ∀ {a : List Nat}, readRanks I names s a = some (s', m) → SymInv s' := by
    intro a e
    unfold readRanks at e
    split at e
    · have := monomial_sym (I := I) (names := names) hs (wrap I.scenario a)
      rw [Option.some.inj e] at this
      exact this
    · simp at e
  have viaRows : ∀ {rows : List Op}, readRows I names s rows = some (s', m) → SymInv s' := by
    intro rows e
    unfold readRows at e
    obtain ⟨w, -, e⟩ := Option.bind_eq_some_iff.1 e
    exact viaRanks e
  have same : ∀ {m' : Mon}, some (s, m') = some (s', m) → SymInv s' := by
    intro m' e
    obtain ⟨rfl, rfl⟩ := Prod.mk.inj (Option.some.inj e)
    exact hs
  cases f with
  | moment m' => exact same e
  | atom a =>
    have := register_sym (I := I) (names := names) hs [a]
    rwa [(Prod.mk.inj (Option.some.inj e)).1] at this
  | array1 a => exact viaRanks e
  | array2 rows => exact viaRows e
  | name t =>
    simp only [sanitise] at e
    split at e
    · exact same e
    · obtain ⟨rows, -, e⟩ := Option.bind_eq_some_iff.1 e
      exact viaRows e
  | symbol l =>
    simp only [sanitise] at e
    split at e
    · exact same e
    · split at e
      · exact same e
      · obtain ⟨rows, -, e⟩ := Option.bind_eq_some_iff.1 e
        exact viaRows e
  | number r =>
    simp only [sanitise] at e
    split at e
    · exact same e
    · simp at e

theorem foldl_sym (vs : List (List Bool)) : ∀ s : Session, SymInv s → SymInv (vs.foldl (fun s v => (monomial I names s (flatnonzero v)).1) s) := by
  induction vs with
  | nil => intro s hs; exact hs
  | cons v vs ih => intro s hs; exact ih _ (monomial_sym hs _)

theorem step_inv (h : NamesOk I names) {s s' : Session} (hi : Inv I names s) (hsym : SymInv s) (hstep : Step I names order s s') :
    Inv I names s' ∧ SymInv s' ∧ (∀ m' ∈ s.created, m' ∈ s'.created) ∧ Extends s.cache s'.cache := by
  cases hstep with
  | read hf e =>
    obtain ⟨r1, -, r3, r4⟩ := sanitise_inv h hi hf hsym e
    exact ⟨r1, sanitise_sym hsym e, r3, r4⟩
  | @combine atoms hf =>
    obtain ⟨r1, -, r3, r4⟩ := register_inv h hi (m := sortBy atomLe atoms) (by
      intro a ha
      obtain ⟨m', hm', ham⟩ := hf a (mem_sortBy.1 ha)
      exact hi.atoms m' hm' a ham) (sort_idem _)
    exact ⟨r1, register_sym hsym _, r3, by rw [r4]; exact .refl _⟩

theorem later_inv (h : NamesOk I names) {s s' : Session} (hi : Inv I names s) (hsym : SymInv s) (hl : Later I names order s s') :
    Inv I names s' ∧ SymInv s' ∧ (∀ m' ∈ s.created, m' ∈ s'.created) ∧ Extends s.cache s'.cache := by
  induction hl with
  | refl => exact ⟨hi, hsym, fun _ hm => hm, .refl _⟩
  | tail _ hstep ih =>
    obtain ⟨a1, a2, a3, a4⟩ := ih
    obtain ⟨b1, b2, b3, b4⟩ := step_inv h a1 a2 hstep
    exact ⟨b1, b2, fun m' hm => b3 m' (a3 m' hm), a4.trans b4⟩

theorem start_sym : SymInv (start) := by
  intro e he
  have : e = ([], []) := by simpa [start] using he
  exact Or.inr (by rw [this])

theorem reachable_inv (hI : I.Accepted) (h : NamesOk I names) {s : Session} (hr : Reachable I names order s) : Inv I names s ∧ SymInv s := by
  obtain ⟨g1, -, -, -⟩ := columns_inv h I.columns (columns_length hI) (start) start_inv
  obtain ⟨l1, l2, -, -⟩ := later_inv (order := order) h g1 (foldl_sym I.columns _ start_sym) hr
  exact ⟨l1, l2⟩

/-! ### Integer types -/

theorem lt_minWidth (v : Nat) : v < minWidth v := by
  unfold minWidth
  repeat' split <;> try omega

theorem le_foldl_max (l : List Nat) (x : Nat) (hx : x ∈ l) : x ≤ l.foldl max 0 := by
  have : ∀ (l : List Nat) (a : Nat), a ≤ l.foldl max a ∧ ∀ x ∈ l, x ≤ l.foldl max a := by
    intro l
    induction l with
    | nil => intro a; simp
    | cons b l ih =>
      intro a
      obtain ⟨h1, h2⟩ := ih (max a b)
      rw [List.foldl_cons]
      refine ⟨le_trans (le_max_left _ _) h1, ?_⟩
      intro x hx
      rcases List.mem_cons.1 hx with rfl | hx
      · exact le_trans (le_max_right _ _) h1
      · exact h2 x hx
  exact (this l 0).2 x hx

/-- The entries of the rows of operators of the problem fit into the integer type. -/
theorem wrapOp_valid {S : Scenario} {op : Op} (h : Valid S op) : wrapOp S op = op := by
  have hw : ∀ v, (v < minWidth (((List.range S.nParties).map S.settings).foldl max 0) ∨ v < minWidth (((List.range S.nParties).map S.outcomes).foldl max 0) ∨
      v < minWidth (S.nParties + 1) ∨ v < minWidth (((List.range S.nSources).map S.level).foldl max 0 + 1)) → v % dtypeWidth S = v := by
    intro v hv
    apply Nat.mod_eq_of_lt
    unfold dtypeWidth
    omega
  have hp := h.party_pos
  have hp' := h.party_le
  have hmem : ∀ f : Nat → Nat, f (op.party - 1) ≤ ((List.range S.nParties).map f).foldl max 0 :=
    fun f => le_foldl_max _ _ (List.mem_map.2 ⟨_, List.mem_range.2 (by omega), rfl⟩)
  unfold wrapOp
  have e1 : op.party % dtypeWidth S = op.party := hw _ (Or.inr (Or.inr (Or.inl (lt_of_lt_of_le (by omega) (le_of_lt (lt_minWidth _))))))
  have e2 : op.setting % dtypeWidth S = op.setting := hw _ (Or.inl (lt_trans (lt_of_lt_of_le h.setting_lt (hmem S.settings)) (lt_minWidth _)))
  have e3 : op.outcome % dtypeWidth S = op.outcome := hw _ (Or.inr (Or.inl (lt_trans (lt_of_lt_of_le h.outcome_lt (hmem S.outcomes)) (lt_minWidth _))))
  have e4 : op.copies.map (· % dtypeWidth S) = op.copies := by
    apply List.ext_getElem (by simp)
    intro s h1 h2
    rw [List.getElem_map]
    apply hw
    refine Or.inr (Or.inr (Or.inr (lt_of_le_of_lt ?_ (lt_minWidth _))))
    have hok := h.copies_ok s h2
    have hs : s < S.nSources := by rw [← h.copies_len]; exact h2
    have := le_foldl_max _ _ (List.mem_map.2 ⟨s, List.mem_range.2 hs, rfl⟩ : S.level s ∈ (List.range S.nSources).map S.level)
    split at hok <;> omega
  rw [e1, e2, e3, e4]

theorem wrap_small {S : Scenario} (hS : S.lexorder.length ≤ dtypeWidth S) {a : List Nat} (ha : ∀ x ∈ a, x < S.lexorder.length) : wrap S a = a := by
  unfold wrap
  conv => rhs; rw [← List.map_id a]
  apply List.map_congr_left
  intro x hx
  exact Nat.mod_eq_of_lt (lt_of_lt_of_le (ha x hx) hS)

theorem mapM_rank {S : Scenario} {w : List Nat} {rows : List Op} (h : List.Forall₂ (fun r op => S.lexorder[r]? = some op) w rows) :
    S.monToLexrepr (rows.map (wrapOp S)) = some w := by
  unfold Scenario.monToLexrepr
  induction h with
  | nil => rfl
  | @cons r op w rows h _ ih =>
    obtain ⟨hr, e⟩ := List.getElem?_eq_some_iff.1 h
    have hv : Valid S op := (mem_lexorder S).1 (List.mem_of_getElem? h)
    rw [List.map_cons, List.mapM_cons, ih, wrapOp_valid hv, Verif.Symmetry.lookup_valid S hv]
    have : S.lexorder.idxOf op = r := by rw [← e]; exact (lexorder_nodup S).idxOf_getElem r hr
    rw [this]
    rfl

/-- Rows of operators of the problem are read as their ranks. -/
theorem readRows_eq {s : Session} {w : List Nat} {rows : List Op} (h : List.Forall₂ (fun r op => I.scenario.lexorder[r]? = some op) w rows) :
    readRows I names s rows = readRanks I names s w := by
  unfold readRows
  rw [mapM_rank h]
  rfl

end Verif.Sanitise
