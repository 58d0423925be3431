import Verif.LpSolver.Cert
/-!
C31: certificates are valid. The multipliers are any that MOSEK may return for the task (`Task.Feasible` of the dual task, or
`Task.Multipliers` of the primal one).
-/
namespace Verif.LpSolver
open Verif.Common

variable {K : Type} [Field K] [LinearOrder K]

/-- MOSEK's conditions on the multipliers `y` it returns for a maximisation, for the objective `c` (the objective of the task for an
optimal solution, zero for a certificate of infeasibility): a constraint `row ≥ l` has `y ≤ 0`, a constraint `row ≤ u` has `0 ≤ y`; a
variable with only a lower bound has `(Aᵀ y) ≥ c`, one with only an upper bound has `(Aᵀ y) ≤ c`, a free one equality. -/
structure Task.Multipliers (t : Task K) (c : Nat → K) (y : Nat → K) : Prop where
  con : ∀ i, i < t.numcon → (t.bkc.getD i .fr = .lo → y i ≤ 0) ∧ (t.bkc.getD i .fr = .up → 0 ≤ y i) ∧ (t.bkc.getD i .fr = .fr → y i = 0)
  var : ∀ j, j < t.numvar → (t.bkx.getD j .fr = .lo → c j ≤ rowAt (transp t.ents) y j) ∧
    (t.bkx.getD j .fr = .up → rowAt (transp t.ents) y j ≤ c j) ∧ (t.bkx.getD j .fr = .fr → rowAt (transp t.ents) y j = c j)

/-- The value at `x` of the certificate. -/
def certAt (n : Nat) (f : Flags) (p : Prep K) (y : List K) (x : Nat → K) : K :=
  ∑ j ∈ Finset.range n, (certData f p y).getD j 0 * x j

/-- The value at `x` of the certificate returned as a dictionary. -/
def dictAt (d : List (Nat × K)) (x : Nat → K) : K := (d.map fun t => t.2 * x t.1).sum

/-- The program has no bounds on variables other than the default. -/
def NoBounds (a : Args K) : Prop := a.lower.ents = [] ∧ a.upper.ents = []

/-- The objective has no terms on the known variables. -/
def ObjectiveOnUnknown (a : Args K) : Prop := ∀ e ∈ a.objective.ents, ∀ d ∈ a.known.ents, d.2.1 ≠ e.2.1

/-- `y` is a list of multipliers that the solver may return for this call. -/
def Returned (f : Flags) (a : Args K) (c : Nat → K) (y : List K) : Prop :=
  ∃ t, buildTask f a = some t ∧
    if f.dual then t.numvar ≤ y.length ∧ t.Feasible fun i => y.getD i 0
    else t.numcon ≤ y.length ∧ t.Multipliers c fun i => y.getD i 0

theorem unknownObjective_eq {a : Args K} (h : ObjectiveOnUnknown a) (x : Nat → K) : unknownObjective a x = linear a.objective x := by
  unfold unknownObjective linear
  have : (a.objective.ents.filter fun e => !((a.known.ents.map fun d => d.2.1).contains e.2.1)) = a.objective.ents := by
    rw [List.filter_eq_self]
    intro e he
    simp only [List.contains_eq_mem, List.mem_map, Bool.not_eq_eq_eq_not, Bool.not_true, decide_eq_false_iff_not, not_exists, not_and]
    exact h e he
  rw [this]

variable [IsStrictOrderedRing K]

theorem primal_signs {n : Nat} {f : Flags} {a : Args K} {p : Prep K} (hs : PrepSpec n f a p) {c y : Nat → K}
    (hy : (primalTask f p).Multipliers c y) :
    (∀ i, i < a.ineq.rows → y i ≤ 0) ∧
    (f.relaxKnown = true → ∀ k, k < a.known.ents.length → y (a.ineq.rows + a.eq.rows + k) ≤ 0 ∧
      0 ≤ y (a.ineq.rows + a.eq.rows + a.known.ents.length + k)) := by
  have hrows := hs.rows
  have hnE := hs.nEq
  have hc := hy.con
  simp only [primalTask, hs.nIneq, hs.nKnown] at hc
  refine ⟨?_, ?_⟩
  · intro i hi
    have := (hc i (by split at hrows <;> omega)).1
    rw [List.append_assoc, List.getD_append _ _ _ _ (by simpa using hi), getD_rep hi] at this
    exact this rfl
  · intro hrk k hk
    rw [if_pos hrk] at hrows hnE
    rw [hnE] at hc
    simp only [hrk, if_true] at hc
    constructor
    · have := (hc (a.ineq.rows + a.eq.rows + k) (by omega)).1
      rw [List.getD_append_right _ _ _ _ (by simp)] at this
      rw [List.getD_append _ _ _ _ (by simp; omega), getD_rep (by simp; omega)] at this
      exact this rfl
    · have := (hc (a.ineq.rows + a.eq.rows + a.known.ents.length + k) (by omega)).2.1
      rw [List.getD_append_right _ _ _ _ (by simp; omega)] at this
      rw [List.getD_append_right _ _ _ _ (by simp; omega), getD_rep (by simp; omega)] at this
      exact this rfl

omit [IsStrictOrderedRing K] in
theorem noBounds_key {n : Nat} {f : Flags} {a : Args K} {p : Prep K} (hs : PrepSpec n f a p) (hb : NoBounds a)
    {j : Nat} (hj : j < p.con.cols) : (primalTask f p).bkx.getD j .fr = if f.effNonneg then .lo else .fr := by
  have hl : p.lower.ents = [] := by rw [hs.lower]; simp [canonicalOrder, hb.1, sortBy]
  have hu : p.upper.ents = [] := by rw [hs.upper]; simp [canonicalOrder, hb.2, sortBy]
  simp only [primalTask, hl, hu, List.map_nil]
  rw [List.getD_eq_getElem _ _ (by simpa using hj)]
  simp only [List.getElem_map, List.getElem_range, primalKey, List.not_mem_nil, if_false]
  by_cases hr : f.relaxed = true
  · have : f.effNonneg = false := by simp [Flags.effNonneg, hr]
    simp [this]
  · simp only [Bool.not_eq_true] at hr
    simp [hr]

/-- The multipliers returned by a call, whichever form was solved, combine the constraints into a bound on the objective. -/
theorem returned_core {n : Nat} {f : Flags} {a : Args K} (h : ArgsOk n a) (hb : NoBounds a) {p : Prep K} (hp : prepare f a = some p)
    {c : Nat → K} (hc : f.dual = true → c = fun j => (if f.relaxed then slackVec p.con.cols else dense p.objective : List K).getD j 0)
    {y : List K} (hy : Returned f a c y) {x : Nat → K} (hx : f.effNonneg = true → ∀ j, j < p.con.cols → 0 ≤ x j) :
    p.con.rows ≤ y.length ∧
    ∑ j ∈ Finset.range p.con.cols, c j * x j ≤ ∑ i ∈ Finset.range p.con.rows, y.getD i 0 * rowAt p.con.ents x i ∧
    (∀ i, i < a.ineq.rows → y.getD i 0 ≤ 0) := by
  have hs := prepare_spec h hp
  obtain ⟨t, ht, hyt⟩ := hy
  by_cases hd : f.dual = true
  · rw [if_pos hd] at hyt
    obtain ⟨q, hq, ht⟩ := buildTask_dual hd ht
    obtain rfl : p = q := Option.some.inj (hp.symm.trans hq)
    obtain ⟨_, _, hnv, hblc, _⟩ := dual_matrix h hs ht
    have hcore := dual_core h hs ht hyt.2 hx
    rw [hb.1, hb.2] at hcore hnv
    simp only [List.length_nil, Finset.range_zero, Finset.sum_empty, sub_zero, add_zero] at hcore hnv
    refine ⟨by rw [← hnv]; exact hyt.1, ?_, (dual_signs h hs ht hyt.2).1⟩
    rw [hc hd, ← hblc]
    exact hcore
  · rw [if_neg hd] at hyt
    obtain ⟨q, hq, rfl⟩ := buildTask_primal (by simpa using hd) ht
    obtain rfl : p = q := Option.some.inj (hp.symm.trans hq)
    refine ⟨hyt.1, ?_, (primal_signs hs hyt.2).1⟩
    have h1 : ∑ j ∈ Finset.range p.con.cols, c j * x j ≤
        ∑ j ∈ Finset.range p.con.cols, rowAt (transp p.con.ents) (fun i => y.getD i 0) j * x j := by
      apply Finset.sum_le_sum
      intro j hj
      have hj' := Finset.mem_range.1 hj
      have hv := hyt.2.var j hj'
      rw [noBounds_key hs hb hj'] at hv
      by_cases hnn : f.effNonneg = true
      · rw [if_pos hnn] at hv
        exact mul_le_mul_of_nonneg_right (hv.1 rfl) (hx hnn j hj')
      · rw [if_neg hnn] at hv
        rw [← hv.2.2 rfl]
        exact le_refl _
    refine le_trans h1 (le_of_eq ?_)
    rw [bil_cols (fun e he => (hs.inRange e he).2), ← bil_rows (fun e he => (hs.inRange e he).1)]

/-- **C31, the certificate is valid.** Without bounds on variables and with an objective on the unknown variables only, whichever form
of the problem was solved, the certificate built from the multipliers returned for an optimal solution is non-negative on every
assignment satisfying the causal constraints (and the default non-negativity), whatever its values for the known variables. -/
theorem C31_certificate_valid {n : Nat} {f : Flags} {a : Args K} (h : ArgsOk n a) (hb : NoBounds a) (ho : ObjectiveOnUnknown a)
    (hrk : f.relaxKnown = false) (hri : f.relaxIneq = false) {p : Prep K} (hp : prepare f a = some p)
    {y : List K} (hy : Returned f a (fun j => (dense p.objective).getD j 0) y)
    {x : Nat → K} (hx : Causal a x) (hnn : f.nonneg = true → ∀ j, j < n → 0 ≤ x j) : 0 ≤ certAt n f p y x := by
  have hs := prepare_spec h hp
  have hr : f.relaxed = false := by simp [Flags.relaxed, hrk, hri]
  have hn : p.con.cols = n := by rw [hs.cols, hr]; rfl
  have heff : f.effNonneg = f.nonneg := by simp [Flags.effNonneg, hr]
  obtain ⟨hlen, hcore, hsign⟩ := returned_core h hb hp (by intro _; rw [hr]; rfl) hy (x := x) (by rw [heff, hn]; exact hnn)
  have hrows := rows_bound hs hsign hx hrk hri
  rw [hn, objective_value h hs hr x] at hcore
  unfold certAt
  rw [certData_value h hs hlen, unknownObjective_eq ho]
  have : ∑ k ∈ Finset.range a.known.ents.length, certCoeff f a y k * x (knownCol a k) =
      ∑ k ∈ Finset.range a.known.ents.length, y.getD (a.ineq.rows + a.eq.rows + k) 0 * x (knownCol a k) := by
    apply Finset.sum_congr rfl
    intro k _
    simp [certCoeff, hrk]
  rw [this]
  linarith

/-- **C31, feasibility problems.** The same without an objective, for any multipliers: those of an optimal solution (of either form, also
of a relaxed problem) and those certifying that the primal is infeasible. -/
theorem C31_feasibility_certificate_valid {n : Nat} {f : Flags} {a : Args K} (h : ArgsOk n a) (hb : NoBounds a)
    (ho : a.objective.ents = []) {p : Prep K} (hp : prepare f a = some p)
    {y : List K} (hy : Returned f a (fun j => (if f.relaxed then slackVec p.con.cols else dense p.objective : List K).getD j 0) y)
    {x : Nat → K} (hx : Causal a x) (hnn : f.nonneg = true → ∀ j, j < n → 0 ≤ x j) : 0 ≤ certAt n f p y x := by
  have hs := prepare_spec h hp
  by_cases hr : f.relaxed = true
  · have heff : f.effNonneg = false := by simp [Flags.effNonneg, hr]
    have hn : p.con.cols = n + 1 := by rw [hs.cols, hr]; rfl
    obtain ⟨hlen, hcore, hsign⟩ := returned_core h hb hp (fun _ => rfl) hy (x := withSlack n x 0) (by simp [heff])
    rw [hr, hn] at hcore
    simp only [if_true] at hcore
    rw [slackVec_value n] at hcore
    unfold certAt
    rw [certData_value h hs hlen]
    have hu : unknownObjective a x = 0 := by simp [unknownObjective, ho]
    rw [hu, sub_zero]
    have hrows := hs.rows
    have hzn : (withSlack n x 0 : Nat → K) n = 0 := by simp [withSlack]
    rw [hzn, neg_zero] at hcore
    have hkc : ∀ k, k < a.known.ents.length → (withSlack n x 0 : Nat → K) (knownCol a k) = x (knownCol a k) := by
      intro k hk
      simp [withSlack, Nat.ne_of_lt (knownCol_lt h hk)]
    refine le_trans hcore ?_
    have h1 : ∑ i ∈ Finset.range a.ineq.rows, y.getD i 0 * rowAt p.con.ents (withSlack n x 0) i ≤ 0 := by
      apply Finset.sum_nonpos
      intro i hi
      have hi' := Finset.mem_range.1 hi
      rw [hs.ineqRow _ i hi', withSlack_row h.ineq, hzn, ite_self, add_zero]
      exact mul_nonpos_of_nonpos_of_nonneg (hsign i hi') (hx.ineq i hi')
    have h2 : ∑ i ∈ Finset.range a.eq.rows, y.getD (a.ineq.rows + i) 0 * rowAt p.con.ents (withSlack n x 0) (a.ineq.rows + i) = 0 := by
      apply Finset.sum_eq_zero
      intro i hi
      rw [hs.eqRow _ i (Finset.mem_range.1 hi), withSlack_row h.eq, hx.eq i (Finset.mem_range.1 hi), mul_zero]
    by_cases hrk : f.relaxKnown = true
    · rw [if_pos hrk] at hrows
      rw [hrows, Finset.sum_range_add, Finset.sum_range_add, h2, Nat.mul_two, Finset.sum_range_add]
      have h3 : ∑ k ∈ Finset.range a.known.ents.length, certCoeff f a y k * x (knownCol a k) =
          ∑ k ∈ Finset.range a.known.ents.length, y.getD (a.ineq.rows + a.eq.rows + k) 0 *
            rowAt p.con.ents (withSlack n x 0) (a.ineq.rows + a.eq.rows + k) +
          ∑ k ∈ Finset.range a.known.ents.length, y.getD (a.ineq.rows + a.eq.rows + (a.known.ents.length + k)) 0 *
            rowAt p.con.ents (withSlack n x 0) (a.ineq.rows + a.eq.rows + (a.known.ents.length + k)) := by
        rw [← Finset.sum_add_distrib]
        apply Finset.sum_congr rfl
        intro k hk
        have hk' := Finset.mem_range.1 hk
        rw [← Nat.add_assoc, (hs.relaxedRow hrk _ k hk').1, (hs.relaxedRow hrk _ k hk').2, hzn, hkc k hk']
        simp only [certCoeff, hrk, if_true]
        ring
      rw [h3]
      linarith
    · have hrk' : f.relaxKnown = false := by simpa using hrk
      rw [if_neg hrk] at hrows
      rw [hrows, Finset.sum_range_add, Finset.sum_range_add, h2]
      have h3 : ∑ k ∈ Finset.range a.known.ents.length, certCoeff f a y k * x (knownCol a k) =
          ∑ k ∈ Finset.range a.known.ents.length, y.getD (a.ineq.rows + a.eq.rows + k) 0 *
            rowAt p.con.ents (withSlack n x 0) (a.ineq.rows + a.eq.rows + k) := by
        apply Finset.sum_congr rfl
        intro k hk
        have hk' := Finset.mem_range.1 hk
        rw [hs.knownRow hrk' _ k hk', hkc k hk']
        simp [certCoeff, hrk']
      rw [h3]
      linarith
  · have hr' : f.relaxed = false := by simpa using hr
    rw [hr'] at hy
    simp only [Flags.relaxed, Bool.or_eq_false_iff] at hr'
    exact C31_certificate_valid h hb (by intro e he; rw [ho] at he; exact absurd he (by simp)) hr'.1 hr'.2 hp hy hx hnn

omit [IsStrictOrderedRing K] in
/-- **C31, what the certificate says of the tested values.** On an assignment with the known values given, the certificate of a
feasibility problem takes the value of the dual objective; so if that is negative, the known values are incompatible. -/
theorem C31_value_at_known {n : Nat} {f : Flags} {a : Args K} (h : ArgsOk n a) (ho : a.objective.ents = [])
    (hrk : f.relaxKnown = false) {p : Prep K} (hp : prepare f a = some p) {y : List K} (hlen : p.con.rows ≤ y.length) {x : Nat → K} (hx : Known a x) :
    certAt n f p y x = ∑ i ∈ Finset.range p.con.rows, p.b.getD i 0 * y.getD i 0 := by
  have hs := prepare_spec h hp
  have hrows := hs.rows
  have hb := hs.b
  rw [hrk] at hrows hb
  simp only [Bool.false_eq_true, if_false] at hrows hb
  unfold certAt
  rw [certData_value h hs hlen]
  have hu : unknownObjective a x = 0 := by simp [unknownObjective, ho]
  rw [hu, sub_zero, hrows, Finset.sum_range_add, hb]
  have h0 : ∑ i ∈ Finset.range (a.ineq.rows + a.eq.rows), (List.replicate (a.ineq.rows + a.eq.rows) (0 : K) ++
      ((canonicalOrder a.known).ents.map fun e => e.2.2)).getD i 0 * y.getD i 0 = 0 := by
    apply Finset.sum_eq_zero
    intro i hi
    have hi' := Finset.mem_range.1 hi
    rw [List.getD_append _ _ _ _ (by simpa using hi'), getD_rep hi', zero_mul]
  rw [h0, zero_add]
  apply Finset.sum_congr rfl
  intro k hk
  have hk' := Finset.mem_range.1 hk
  rw [List.getD_append_right _ _ _ _ (by simp), List.length_replicate, Nat.add_sub_cancel_left, (known_iff x).1 hx k hk']
  simp only [certCoeff, hrk, Bool.false_eq_true, if_false, add_zero, knownVal]
  ring

/-- **C31, incompatibility.** If the multipliers of a feasibility problem combine the known values into a negative number, there is no
solution. -/
theorem C31_negative_is_incompatible {n : Nat} {f : Flags} {a : Args K} (h : ArgsOk n a) (hb : NoBounds a) (ho : a.objective.ents = [])
    (hrk : f.relaxKnown = false) (hri : f.relaxIneq = false) {p : Prep K} (hp : prepare f a = some p)
    {y : List K} (hy : Returned f a (fun j => (dense p.objective).getD j 0) y)
    (hneg : ∑ i ∈ Finset.range p.con.rows, p.b.getD i 0 * y.getD i 0 < 0) : ¬ ∃ x, Solves n f.nonneg a x := by
  rintro ⟨x, hx⟩
  have hr : f.relaxed = false := by simp [Flags.relaxed, hrk, hri]
  have hnn : f.nonneg = true → ∀ j, j < n → 0 ≤ x j := by
    intro hf j hj
    exact hx.nonneg hf j hj fun e he => by rw [hb.1] at he; exact absurd he (by simp)
  have hlen : p.con.rows ≤ y.length := by
    refine (returned_core h hb hp (by intro _; rw [hr]; rfl) hy (x := x) ?_).1
    have hs := prepare_spec h hp
    have hn : p.con.cols = n := by rw [hs.cols, hr]; rfl
    have heff : f.effNonneg = f.nonneg := by simp [Flags.effNonneg, hr]
    rw [heff, hn]; exact hnn
  have h1 := C31_certificate_valid h hb (by intro e he; rw [ho] at he; exact absurd he (by simp)) hrk hri hp hy hx.causal hnn
  rw [C31_value_at_known h ho hrk hp hlen hx.known] at h1
  exact absurd hneg (not_lt.2 h1)

omit [IsStrictOrderedRing K] in
theorem foldl_len {β : Type} (g : List K → β → List K) (hg : ∀ acc b, (g acc b).length = acc.length) (l : List β) (acc : List K) :
    (l.foldl g acc).length = acc.length := by
  induction l generalizing acc with
  | nil => rfl
  | cons b l ih => rw [List.foldl_cons, ih, hg]

omit [IsStrictOrderedRing K] in
theorem certData_length (f : Flags) (p : Prep K) (y : List K) : (certData f p y).length = p.con.cols := by
  unfold certData
  split
  · rw [foldl_len _ (fun acc b => by simp), foldl_len _ (fun acc b => by simp), foldl_len _ (fun acc b => by simp)]; simp
  · rw [foldl_len _ (fun acc b => by simp), foldl_len _ (fun acc b => by simp)]; simp

omit [IsStrictOrderedRing K] in
theorem dict_sum (g : Nat → K) (x : Nat → K) (n : Nat) :
    ((((List.map g (List.range n)).mapIdx fun j v => (j, v)).filter fun t => !(isClose0 t.2)).map fun t => t.2 * x t.1).sum =
      ∑ j ∈ Finset.range n, if isClose0 (g j) = true then 0 else g j * x j := by
  induction n with
  | zero => simp
  | succ n ih =>
    rw [List.range_succ, List.map_append, List.mapIdx_append, List.filter_append, List.map_append, List.sum_append, Finset.sum_range_succ, ih]
    congr 1
    simp only [List.map_cons, List.map_nil, List.length_map, List.length_range, List.mapIdx_cons, List.mapIdx_nil, Nat.zero_add]
    by_cases hc : isClose0 (g n) = true
    · simp [hc]
    · simp [hc]

/-- **C31, the dictionary.** The certificate returned as a dictionary leaves out the coefficients within `1e-8` of zero, so it is only
non-negative up to that tolerance times the sum of the absolute values of the variables. -/
theorem C31_dictionary_close {n : Nat} {f : Flags} {a : Args K} (h : ArgsOk n a) {p : Prep K} (hp : prepare f a = some p) (y : List K)
    (x : Nat → K) :
    certAt n f p y x - dictAt (certificate f p n y) x ≤ 1 / 100000000 * ∑ j ∈ Finset.range n, |x j| := by
  have hs := prepare_spec h hp
  have hcols : n ≤ p.con.cols := by rw [hs.cols]; split <;> omega
  have hlen := certData_length f p y
  have hd : dictAt (certificate f p n y) x = ∑ j ∈ Finset.range n, if isClose0 ((certData f p y).getD j 0) then 0 else (certData f p y).getD j 0 * x j := by
    unfold dictAt certificate
    have hl : ((certData f p y).take n) = (List.range n).map fun j => (certData f p y).getD j 0 := by
      apply List.ext_getElem
      · simp [hlen, hcols]
      · intro i h1 h2
        simp only [List.length_map, List.length_range] at h2
        rw [List.getElem_take, List.getElem_map, List.getElem_range, List.getD_eq_getElem _ _ (by omega)]
    rw [hl]
    exact dict_sum _ x n
  rw [hd]
  unfold certAt
  rw [← Finset.sum_sub_distrib, Finset.mul_sum]
  apply Finset.sum_le_sum
  intro j _
  by_cases hc : isClose0 ((certData f p y).getD j 0) = true
  · rw [if_pos hc, sub_zero]
    have h1 : |(certData f p y).getD j 0| ≤ 1 / 100000000 := by simpa [isClose0] using hc
    calc (certData f p y).getD j 0 * x j ≤ |(certData f p y).getD j 0 * x j| := le_abs_self _
      _ = |(certData f p y).getD j 0| * |x j| := abs_mul _ _
      _ ≤ 1 / 100000000 * |x j| := mul_le_mul_of_nonneg_right h1 (abs_nonneg _)
  · rw [if_neg hc, sub_self]
    have := abs_nonneg (x j)
    positivity

end Verif.LpSolver
