import Verif.Moment.Lemmas
import Mathlib.Tactic.Linarith
import Mathlib.Algebra.Order.BigOperators.Ring.List
import Mathlib.Data.Rat.Cast.Order
import Mathlib.Tactic.NormNum
/-
C24 product moments, C25 evaluation.
-/
namespace Verif.Moment
open Verif.Common Verif.MomentMatrix Verif.SymMM

/-! ## C24 -/

/-- **C24, order.** The same factors in any order give the same moment, in every attribute. -/
theorem C24_order_irrelevant (I : AtomInfo) (ms ms' : List Atom) (h : ms.Perm ms') : compound I ms = compound I ms' := by
  unfold compound
  rw [sort_perm h]

theorem factors_perm (I : AtomInfo) (ms : List Atom) : (compound I ms).factors.Perm ms := sortBy_perm _ _

/-- **C24, equality.** Two moments are equal exactly when they are built from the same factors with the same multiplicities, and then all their attributes
(in particular the hash, computed from the factors) agree. -/
theorem C24_equality (I : AtomInfo) (ms ms' : List Atom) :
    ((compound I ms).eq (compound I ms') = true ↔ ms.Perm ms') ∧
    ((compound I ms).eq (compound I ms') = true → compound I ms = compound I ms') := by
  have key : (compound I ms).eq (compound I ms') = true ↔ ms.Perm ms' := by
    unfold Compound.eq compound
    rw [counterEq_iff]
    constructor
    · intro h
      exact (sortBy_perm _ _).symm.trans (h.trans (sortBy_perm _ _))
    · intro h
      exact (sortBy_perm _ _).trans (h.trans (sortBy_perm _ _).symm)
  exact ⟨key, fun h => C24_order_irrelevant I ms ms' (key.1 h)⟩

/-- **C24, factors.** The knowable and unknowable factors are the knowable and unknowable members of the given list, with multiplicities. -/
theorem C24_factors (I : AtomInfo) (ms : List Atom) :
    (compound I ms).knowableFactors.Perm (ms.filter I.knowable) ∧
    (compound I ms).unknowableFactors.Perm (ms.filter fun f => !I.knowable f) ∧
    (compound I ms).nOperators = (ms.map List.length).sum := by
  refine ⟨?_, ?_, ?_⟩
  · exact (elements_perm _ _).trans ((sortBy_perm _ _).filter _)
  · exact (elements_perm _ (fun f => !I.knowable f)).trans ((sortBy_perm _ _).filter _)
  · exact ((sortBy_perm atomLe ms).map _).sum_eq

/-- **C24, classification.** A moment is knowable exactly when all its factors are, unknowable when it has factors and none is knowable, and semi-knowable
otherwise. -/
theorem C24_status (I : AtomInfo) (ms : List Atom) :
    ((compound I ms).status = .knowable ↔ ∀ f ∈ ms, I.knowable f = true) ∧
    ((compound I ms).status = .unknowable ↔ ms ≠ [] ∧ ∀ f ∈ ms, I.knowable f = false) ∧
    ((compound I ms).status = .semi ↔ (∃ f ∈ ms, I.knowable f = true) ∧ ∃ f ∈ ms, I.knowable f = false) ∧
    ((compound I ms).isKnowable = true ↔ ∀ f ∈ ms, I.knowable f = true) := by
  have hu := (C24_factors I ms).2.1.length_eq
  have hf := (factors_perm I ms).length_eq
  have hst : (compound I ms).status = if (ms.filter fun f => !I.knowable f).length = 0 then Status.knowable
      else if (ms.filter fun f => !I.knowable f).length = ms.length then .unknowable else .semi := by
    rw [← hu, ← hf]
    rfl
  have h0 : (ms.filter fun f => !I.knowable f).length = 0 ↔ ∀ f ∈ ms, I.knowable f = true := by
    rw [List.length_eq_zero_iff, List.filter_eq_nil_iff]
    simp
  have hl : (ms.filter fun f => !I.knowable f).length = ms.length ↔ ∀ f ∈ ms, I.knowable f = false := by
    rw [List.length_filter_eq_length_iff]
    simp
  have hk : (compound I ms).isKnowable = true ↔ ∀ f ∈ ms, I.knowable f = true := by
    show (sortBy atomLe ms).all I.knowable = true ↔ _
    rw [List.all_eq_true]
    simp only [mem_sortBy]
  rw [hst]
  by_cases c0 : ∀ f ∈ ms, I.knowable f = true
  · rw [if_pos (h0.2 c0)]
    refine ⟨by simpa using c0, ?_, ?_, hk⟩
    · simp only [reduceCtorEq, false_iff, not_and]
      intro hne hA
      obtain ⟨f, hf⟩ := List.exists_mem_of_ne_nil ms hne
      have := c0 f hf
      rw [hA f hf] at this
      simp at this
    · simp only [reduceCtorEq, false_iff, not_and, not_exists]
      intro _ f hf
      simp [c0 f hf]
  · rw [if_neg (fun h => c0 (h0.1 h))]
    have hex : ∃ f ∈ ms, I.knowable f = false := by
      push Not at c0
      obtain ⟨f, hf, hk⟩ := c0
      exact ⟨f, hf, by simpa using hk⟩
    by_cases c1 : ∀ f ∈ ms, I.knowable f = false
    · rw [if_pos (hl.2 c1)]
      refine ⟨by simp only [reduceCtorEq, false_iff]; exact c0, ?_, ?_, hk⟩
      · simp only [true_iff]
        refine ⟨?_, c1⟩
        rintro rfl
        obtain ⟨f, hf, _⟩ := hex
        simp at hf
      · simp only [reduceCtorEq, false_iff, not_and]
        rintro ⟨f, hf, h⟩
        rw [c1 f hf] at h
        simp at h
    · rw [if_neg (fun h => c1 (hl.1 h))]
      refine ⟨by simp only [reduceCtorEq, false_iff]; exact c0, by simp only [reduceCtorEq, false_iff, not_and]; exact fun _ => c1, ?_, hk⟩
      simp only [true_iff]
      refine ⟨?_, hex⟩
      push Not at c1
      obtain ⟨f, hf, h⟩ := c1
      exact ⟨f, hf, by simpa using h⟩

/-! ### the SDP version -/

theorem tupleLe_total (u v : List Atom) : tupleLe u v = true ∨ tupleLe v u = true := by
  induction u generalizing v with
  | nil => simp [tupleLe]
  | cons a u ih =>
    cases v with
    | nil => simp [tupleLe]
    | cons b v =>
      unfold tupleLe
      by_cases h : a = b
      · subst h; simpa using ih v
      · rw [if_neg h, if_neg (fun e => h e.symm)]
        exact atomLe_total a b

theorem tupleLe_antisymm (u v : List Atom) (h1 : tupleLe u v = true) (h2 : tupleLe v u = true) : u = v := by
  induction u generalizing v with
  | nil =>
    cases v with
    | nil => rfl
    | cons b v => simp [tupleLe] at h2
  | cons a u ih =>
    cases v with
    | nil => simp [tupleLe] at h1
    | cons b v =>
      unfold tupleLe at h1 h2
      by_cases h : a = b
      · subst h
        simp only [if_true] at h1 h2
        rw [ih v h1 h2]
      · rw [if_neg h] at h1
        rw [if_neg (fun e => h e.symm)] at h2
        exact absurd (atomLe_antisymm a b h1 h2) h

theorem min_swap (d c : List Atom) : (if tupleLe d c then d else c) = if tupleLe c d then c else d := by
  by_cases h1 : tupleLe d c = true
  · by_cases h2 : tupleLe c d = true
    · rw [if_pos h1, if_pos h2, tupleLe_antisymm _ _ h1 h2]
    · rw [if_pos h1, if_neg h2]
  · have h2 := (tupleLe_total d c).resolve_left h1
    rw [if_neg h1, if_pos h2]

/-- **C24, SDP.** In the SDP, factors given in any order, or replaced all together by their adjoints, give the same moment, and no other lists of factors do. -/
theorem C24_sdp_equality (I : AtomInfo) (dagger : Atom → Atom) (hd : ∀ a, dagger (dagger a) = a) (ms ms' : List Atom) :
    compoundSDP I dagger ms = compoundSDP I dagger ms' ↔ ms.Perm ms' ∨ ms.Perm (ms'.map dagger) := by
  have hdd : ∀ l : List Atom, (l.map dagger).map dagger = l := by
    intro l
    rw [List.map_map]
    conv_rhs => rw [← List.map_id l]
    exact List.map_congr_left fun a _ => hd a
  have e1 : compoundSDP I dagger (ms'.map dagger) = compoundSDP I dagger ms' := by
    unfold compoundSDP
    simp only [hdd]
    rw [min_swap]
  have e2 : ∀ l l' : List Atom, l.Perm l' → compoundSDP I dagger l = compoundSDP I dagger l' := by
    intro l l' h
    unfold compoundSDP
    simp only [sort_perm h, sort_perm (h.map dagger)]
  constructor
  · intro h
    have hf : (compoundSDP I dagger ms).factors = (compoundSDP I dagger ms').factors := by rw [h]
    have hp : ∀ l, (compoundSDP I dagger l).factors.Perm l ∨ (compoundSDP I dagger l).factors.Perm (l.map dagger) := by
      intro l
      unfold compoundSDP
      simp only
      split
      · exact .inl ((factors_perm I _).trans (sortBy_perm _ _))
      · exact .inr ((factors_perm I _).trans (sortBy_perm _ _))
    have h1 := hp ms
    have h2 := hp ms'
    rw [hf] at h1
    rcases h1 with h1 | h1 <;> rcases h2 with h2 | h2
    · exact .inl (h1.symm.trans h2)
    · exact .inr (h1.symm.trans h2)
    · right
      have := (h1.symm.trans h2).map dagger
      rwa [hdd] at this
    · left
      have := (h1.symm.trans h2).map dagger
      rwa [hdd, hdd] at this
  · rintro (h | h)
    · exact e2 _ _ h
    · rw [e2 _ _ h, e1]

/-! ## C25 -/

theorem eval_loop (known : Atom → Option Rat) (c : List (Atom × Nat)) (v : Rat) (r : List (Atom × Nat)) :
    c.foldl (evalStep known) (v, r) =
      (v * ((c.filter fun t => (known t.1).isSome).map fun t => ((known t.1).getD 0) ^ t.2).prod, r ++ c.filter fun t => (known t.1).isNone) := by
  induction c generalizing v r with
  | nil => simp
  | cons t c ih =>
    rw [List.foldl_cons]
    cases h : known t.1 with
    | none => simp [evalStep, ih, h]
    | some x => simp [evalStep, ih, h, mul_assoc]

theorem evaluate_eq (I : AtomInfo) (ms : List Atom) (known : Atom → Option Rat) (lpi : Bool) :
    (evaluate (compound I ms) known lpi).1 = ((ms.filter fun f => (known f).isSome).map fun f => (known f).getD 0).prod ∧
    (evaluate (compound I ms) known lpi).2.1.Perm (ms.filter fun f => (known f).isNone) := by
  unfold evaluate
  rw [eval_loop]
  simp only [one_mul, List.nil_append]
  refine ⟨?_, ?_⟩
  · show (((counter (sortBy atomLe ms)).filter fun t => (known t.1).isSome).map fun t => ((known t.1).getD 0) ^ t.2).prod = _
    have h1 := (elements_perm (sortBy atomLe ms) (fun f => (known f).isSome)).trans ((sortBy_perm _ _).filter _)
    rw [← (h1.map fun f => (known f).getD 0).prod_eq]
    unfold elements
    induction (counter (sortBy atomLe ms)).filter fun t => (known t.1).isSome with
    | nil => rfl
    | cons t c ih => simp [ih]
  · exact (elements_perm (sortBy atomLe ms) (fun f => (known f).isNone)).trans ((sortBy_perm _ _).filter _)

theorem prod_split (l : List Atom) (p : Atom → Bool) (val : Atom → Rat) :
    (l.map val).prod = ((l.filter p).map val).prod * ((l.filter fun a => !p a).map val).prod := by
  induction l with
  | nil => simp
  | cons a l ih =>
    cases h : p a with
    | true => simp [h, ih, mul_assoc]
    | false => simp [h, ih, mul_left_comm]

/-- **C25, soundness.** In every assignment of values to atomic moments that agrees with the known ones, the product of the factors is the returned value times the product of
the returned remainder. -/
theorem C25_evaluate_sound (I : AtomInfo) (ms : List Atom) (known : Atom → Option Rat) (lpi : Bool) (val : Atom → Rat)
    (h : ∀ f v, known f = some v → val f = v) :
    (ms.map val).prod = (evaluate (compound I ms) known lpi).1 * ((evaluate (compound I ms) known lpi).2.1.map val).prod := by
  obtain ⟨e1, e2⟩ := evaluate_eq I ms known lpi
  rw [e1, (e2.map val).prod_eq, prod_split ms (fun f => (known f).isSome) val]
  congr 1
  · congr 1
    apply List.map_congr_left
    intro f hf
    have := (List.mem_filter.1 hf).2
    obtain ⟨v, hv⟩ := Option.isSome_iff_exists.1 this
    rw [h f v hv, hv]
    rfl
  · simp

/-- **C25, remainder.** The remainder consists of exactly the factors without known value. -/
theorem C25_remainder (I : AtomInfo) (ms : List Atom) (known : Atom → Option Rat) (lpi : Bool) :
    (evaluate (compound I ms) known lpi).2.1.Perm (ms.filter fun f => (known f).isNone) := (evaluate_eq I ms known lpi).2

/-- **C25, status.** Known: nothing remains, or linearised constraints are on, something is known and the known part is zero within 10⁻⁸. Unknown: something remains, and nothing is known or
linearised constraints are off. Semi: linearised constraints are on, something is known and something remains, and the known part is not within 10⁻⁸ of zero. -/
theorem C25_status (I : AtomInfo) (ms : List Atom) (known : Atom → Option Rat) (lpi : Bool) :
    let r := evaluate (compound I ms) known lpi
    (r.2.2 = .known ↔ (∀ f ∈ ms, (known f).isSome = true) ∨
      (lpi = true ∧ (∃ f ∈ ms, (known f).isSome = true) ∧ (∃ f ∈ ms, known f = none) ∧ |r.1| ≤ 1 / 10 ^ 8)) ∧
    (r.2.2 = .unknown ↔ (∃ f ∈ ms, known f = none) ∧ ((∀ f ∈ ms, known f = none) ∨ lpi = false)) ∧
    (r.2.2 = .semi ↔ lpi = true ∧ (∃ f ∈ ms, (known f).isSome = true) ∧ (∃ f ∈ ms, known f = none) ∧ 1 / 10 ^ 8 < |r.1|) := by
  intro r
  have hl := (C25_remainder I ms known lpi).length_eq
  have hf := (factors_perm I ms).length_eq
  have hst : r.2.2 = if (ms.filter fun f => (known f).isNone).length = 0 then Known.known
      else if (ms.filter fun f => (known f).isNone).length = ms.length || !lpi then .unknown
      else if isClose0 r.1 then .known else .semi := by
    rw [← hl, ← hf]
    rfl
  have h0 : (ms.filter fun f => (known f).isNone).length = 0 ↔ ∀ f ∈ ms, (known f).isSome = true := by
    rw [List.length_eq_zero_iff, List.filter_eq_nil_iff]
    simp only [Option.isNone_iff_eq_none]
    apply forall_congr'; intro f; apply imp_congr_right; intro _
    rw [← ne_eq, Option.ne_none_iff_isSome]
  have hA : (ms.filter fun f => (known f).isNone).length = ms.length ↔ ∀ f ∈ ms, known f = none := by
    rw [List.length_filter_eq_length_iff]
    simp
  have n0 : (¬ ∀ f ∈ ms, (known f).isSome = true) ↔ ∃ f ∈ ms, known f = none := by
    push Not
    apply exists_congr; intro f; apply and_congr_right; intro _
    simp
  have nA : (¬ ∀ f ∈ ms, known f = none) ↔ ∃ f ∈ ms, (known f).isSome = true := by
    push Not
    apply exists_congr; intro f; apply and_congr_right; intro _
    rw [Option.ne_none_iff_isSome]
  have hc : isClose0 r.1 = true ↔ |r.1| ≤ 1 / 10 ^ 8 := by
    unfold isClose0
    norm_num
  rw [hst]
  by_cases c0 : ∀ f ∈ ms, (known f).isSome = true
  · have c0' : ¬ ∃ f ∈ ms, known f = none := fun h => n0.2 h c0
    rw [if_pos (h0.2 c0)]
    refine ⟨by simpa using .inl c0, ?_, ?_⟩
    · simp only [reduceCtorEq, false_iff, not_and]; exact fun h => absurd h c0'
    · simp only [reduceCtorEq, false_iff]; rintro ⟨_, _, h, _⟩; exact c0' h
  · have c0' := n0.1 c0
    rw [if_neg (fun h => c0 (h0.1 h))]
    by_cases cA : ∀ f ∈ ms, known f = none
    · have cA' : ¬ ∃ f ∈ ms, (known f).isSome = true := fun h => nA.2 h cA
      have : (decide ((ms.filter fun f => (known f).isNone).length = ms.length) || !lpi) = true := by simp [hA.2 cA]
      rw [if_pos this]
      refine ⟨?_, ?_, ?_⟩
      · simp only [reduceCtorEq, false_iff]; rintro (h | ⟨_, h, _⟩); exacts [c0 h, cA' h]
      · simp only [true_iff]; exact ⟨c0', .inl cA⟩
      · simp only [reduceCtorEq, false_iff]; rintro ⟨_, h, _⟩; exact cA' h
    · have cA' := nA.1 cA
      cases lpi with
      | false =>
        simp only [Bool.not_false, Bool.or_true, if_true]
        refine ⟨?_, ?_, ?_⟩
        · simp only [reduceCtorEq, false_iff]; rintro (h | ⟨h, _⟩); exacts [c0 h, by simp at h]
        · simp only [true_iff]; exact ⟨c0', .inr trivial⟩
        · simp
      | true =>
        have : ¬ ((decide ((ms.filter fun f => (known f).isNone).length = ms.length) || !true) = true) := by
          simp only [Bool.not_true, Bool.or_false, decide_eq_true_eq]
          exact fun h => cA (hA.1 h)
        rw [if_neg this]
        by_cases cc : isClose0 r.1 = true
        · rw [if_pos cc]
          refine ⟨?_, ?_, ?_⟩
          · simp only [true_iff]; exact .inr ⟨trivial, cA', c0', hc.1 cc⟩
          · simp only [reduceCtorEq, false_iff, not_and]; intro _; simp [cA]
          · simp only [reduceCtorEq, false_iff]; rintro ⟨_, _, _, h⟩; exact absurd (hc.1 cc) (by linarith)
        · rw [if_neg cc]
          have cc' : ¬ |r.1| ≤ 1 / 10 ^ 8 := fun h => cc (hc.2 h)
          refine ⟨?_, ?_, ?_⟩
          · simp only [reduceCtorEq, false_iff]; rintro (h | ⟨_, _, _, h⟩); exacts [c0 h, cc' h]
          · simp only [reduceCtorEq, false_iff, not_and]; intro _; simp [cA]
          · simp only [true_iff]; exact ⟨trivial, cA', c0', not_le.1 cc'⟩

/-- **C25, precision.** If all factors lie between 0 and 1, a moment reported as known differs from the reported value by at most 10⁻⁸, and not at all
when nothing remains. -/
theorem C25_known_precision (I : AtomInfo) (ms : List Atom) (known : Atom → Option Rat) (lpi : Bool) (val : Atom → Rat)
    (h : ∀ f v, known f = some v → val f = v) (h01 : ∀ f ∈ ms, 0 ≤ val f ∧ val f ≤ 1)
    (hk : (evaluate (compound I ms) known lpi).2.2 = .known) :
    |(ms.map val).prod - (evaluate (compound I ms) known lpi).1| ≤ 1 / 10 ^ 8 ∧
    ((∀ f ∈ ms, (known f).isSome = true) → (ms.map val).prod = (evaluate (compound I ms) known lpi).1) := by
  have hs := C25_evaluate_sound I ms known lpi val h
  have hp := C25_remainder I ms known lpi
  have hexact : (∀ f ∈ ms, (known f).isSome = true) → (ms.map val).prod = (evaluate (compound I ms) known lpi).1 := by
    intro hall
    have : (ms.filter fun f => (known f).isNone) = [] := by
      rw [List.filter_eq_nil_iff]
      intro f hf
      have := hall f hf
      rw [Option.isNone_iff_eq_none, ← ne_eq, Option.ne_none_iff_isSome]
      exact this
    rw [this] at hp
    rw [hs, List.Perm.eq_nil hp]
    simp
  refine ⟨?_, hexact⟩
  rcases (C25_status I ms known lpi).1.1 hk with hall | ⟨_, _, _, hsmall⟩
  · rw [hexact hall]
    norm_num
  · have hr : ∀ f ∈ (evaluate (compound I ms) known lpi).2.1, 0 ≤ val f ∧ val f ≤ 1 := by
      intro f hf
      exact h01 f (List.mem_filter.1 (hp.mem_iff.1 hf)).1
    have key : ∀ l : List Atom, (∀ f ∈ l, 0 ≤ val f ∧ val f ≤ 1) → 0 ≤ (l.map val).prod ∧ (l.map val).prod ≤ 1 := by
      intro l
      induction l with
      | nil => intro _; simp
      | cons a l ih =>
        intro hl
        obtain ⟨h1, h2⟩ := ih (fun f hf => hl f (by simp [hf]))
        obtain ⟨h3, h4⟩ := hl a (by simp)
        simp only [List.map_cons, List.prod_cons]
        exact ⟨mul_nonneg h3 h1, mul_le_one₀ h4 h1 h2⟩
    obtain ⟨h1, h2⟩ := key _ hr
    rw [hs]
    have e : (evaluate (compound I ms) known lpi).1 * ((evaluate (compound I ms) known lpi).2.1.map val).prod - (evaluate (compound I ms) known lpi).1 =
        (evaluate (compound I ms) known lpi).1 * (((evaluate (compound I ms) known lpi).2.1.map val).prod - 1) := by ring
    rw [e, abs_mul]
    have h3 : |((evaluate (compound I ms) known lpi).2.1.map val).prod - 1| ≤ 1 := by
      rw [abs_le]; constructor <;> linarith
    calc _ ≤ (1 / 10 ^ 8 : Rat) * 1 := mul_le_mul hsmall h3 (abs_nonneg _) (by norm_num)
      _ = 1 / 10 ^ 8 := by norm_num

/-! Non-vacuity -/
def exInfo : AtomInfo := ⟨fun a => decide (a.length ≤ 1), fun _ => true, fun _ => false, fun a => "P" ++ toString a⟩
def exKnown (a : Atom) : Option Rat := if a = [3] then some (1 / 2) else none
example : (compound exInfo [[3], [1, 2], [3]]).factors = [[3], [3], [1, 2]] ∧ (compound exInfo [[3], [1, 2], [3]]).status = .semi ∧
    (compound exInfo [[3], [1, 2], [3]]).counter = [([3], 2), ([1, 2], 1)] := by decide
example : (evaluate (compound exInfo [[3], [1, 2], [3]]) exKnown true).2 = ([[1, 2]], .semi) ∧
    (evaluate (compound exInfo [[3], [1, 2], [3]]) exKnown true).1 = 1 / 4 := by decide +kernel
example : (evaluate (compound exInfo [[3], [1, 2]]) (fun a => if a = [3] then some 0 else none) true).2.2 = .known := by decide +kernel
example : compoundSDP exInfo List.reverse [[2, 1], [4]] = compoundSDP exInfo List.reverse [[4], [1, 2]] := by decide

end Verif.Moment
