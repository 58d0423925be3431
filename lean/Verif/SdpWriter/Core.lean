import Verif.SdpWriter.Sections
import Verif.Common.SortLemmas
import Mathlib.Tactic.Linarith
/-
The exported program says the same as the problem.
-/
namespace Verif.SdpWriter
open Verif.Text Verif.State Verif.SdpSolver Verif.Common

set_option linter.unusedSectionVars false

variable {K : Type} {n : Nat} [Field K] [LinearOrder K]

/-- An entry as a tuple. -/
def Ln.entry (l : Ln K) : Nat × Nat × Nat × Nat × K := (l.var, l.block, l.i, l.j, tokVal l.val)

/-- The program a file stands for. -/
def File.prog (f : File K) : Sdpa K := ⟨f.nvars, f.blocks, f.objective, f.lines.map Ln.entry⟩

theorem total_perm (x : Nat → K) (l l' : List (Ln K)) (h : l.Perm l') (b i j : Nat) : total x l b i j = total x l' b i j :=
  (h.map _).sum_eq

theorem prog_at (f : File K) (x : Nat → K) (b i j : Nat) : f.prog.at x b i j = total x f.lines b i j := by
  unfold Sdpa.at File.prog total
  rw [List.map_map]
  rfl

/-- What a successful export consists of. -/
structure Parts (tol : K) (p : Prob K n) (f : File K) where
  u : List (Ln K)
  l : List (Ln K)
  e : List (Ln K)
  i : List (Ln K)
  hu : gather (upperLines tol (matrixPart p).vc (upperBlock p)) (active p p.upper) = some u
  hl : gather (lowerLines tol (matrixPart p).vc (lowerBlock p)) (active p p.lower) = some l
  he : gather (eqLines p (matrixPart p).vc (eqBlock p)) p.eqs = some e
  hi : gather (ineqLines p (matrixPart p).vc (ineqBlock p)) p.ineqs = some i
  lines : f.lines.Perm ((matrixPart p).lines ++ (u ++ (l ++ (e ++ i))))
  blocks : f.blocks = blockStruct p
  obj : objVec p (matrixPart p).vc = some f.objective
  constant : p.objective.get 1 = some f.constant
  nv : f.nvars = (nvars p).toNat

theorem parts_of (tol : K) (p : Prob K n) (f : File K) (h : sdpaFile tol p = some f) : Nonempty (Parts tol p f) := by
  unfold sdpaFile at h
  rcases ho : objVec p (matrixPart p).vc with _ | obj
  · rw [ho] at h; cases h
  · rcases hc : p.objective.get 1 with _ | c
    · rw [ho, hc] at h; cases h
    · rcases ha : allLines tol p with _ | ls
      · rw [ho, hc, ha] at h; cases h
      · rw [ho, hc, ha] at h
        cases h
        unfold allLines at ha
        dsimp only at ha
        rcases hu : gather (upperLines tol (matrixPart p).vc (upperBlock p)) (active p p.upper) with _ | u
        · rw [hu] at ha; cases ha
        · rcases hl : gather (lowerLines tol (matrixPart p).vc (lowerBlock p)) (active p p.lower) with _ | l
          · rw [hu, hl] at ha; cases ha
          · rcases he : gather (eqLines p (matrixPart p).vc (eqBlock p)) p.eqs with _ | e
            · rw [hu, hl, he] at ha; cases ha
            · rcases hi : gather (ineqLines p (matrixPart p).vc (ineqBlock p)) p.ineqs with _ | i
              · rw [hu, hl, he, hi] at ha; cases ha
              · rw [hu, hl, he, hi] at ha
                cases ha
                exact ⟨⟨u, l, e, i, hu, hl, he, hi, sortBy_perm _ _, rfl, ho, hc, rfl⟩⟩

theorem step_cases {α : Type} (l : List α) : (l = [] ∧ step l = 0) ∨ (l ≠ [] ∧ step l = 1) := by
  cases l with
  | nil => left; exact ⟨rfl, rfl⟩
  | cons a l => right; exact ⟨by simp, rfl⟩

section
variable {tol : K} {p : Prob K n} {f : File K} (P : Parts tol p f)
include P

theorem m_place : ∀ ln ∈ (matrixPart p).lines, ln.block = 1 := by
  intro ln h
  rw [(matrix_spec p).2.2, List.mem_flatMap] at h
  obtain ⟨c, _, h⟩ := h
  exact (cellLine_place p _ c ln h).2.1

theorem u_place : ∀ ln ∈ P.u, ln.block = upperBlock p ∧ step p.upper = 1 := by
  intro ln h
  refine ⟨gather_block _ _ _ P.hu (fun ln => ln.block = upperBlock p) (fun t _ out ho ln hln => (upper_place _ _ _ t out ho ln hln).1) ln h, ?_⟩
  rcases step_cases p.upper with ⟨e, _⟩ | ⟨_, e⟩
  · have hg := P.hu
    rw [e] at hg
    have hg' : [] = _ := Option.some.inj hg
    rw [← hg'] at h
    cases h
  · exact e

theorem l_place : ∀ ln ∈ P.l, ln.block = lowerBlock p ∧ step p.lower = 1 := by
  intro ln h
  refine ⟨gather_block _ _ _ P.hl (fun ln => ln.block = lowerBlock p) (fun t _ out ho ln hln => (lower_place _ _ _ t out ho ln hln).1) ln h, ?_⟩
  rcases step_cases p.lower with ⟨e, _⟩ | ⟨_, e⟩
  · have hg := P.hl
    rw [e] at hg
    have hg' : [] = _ := Option.some.inj hg
    rw [← hg'] at h
    cases h
  · exact e

theorem e_place : ∀ ln ∈ P.e, ln.block = eqBlock p ∧ step p.eqs = 1 := by
  intro ln h
  refine ⟨gather_block _ _ _ P.he (fun ln => ln.block = eqBlock p) (fun t _ out ho ln hln => (eq_place _ _ _ t out ho ln hln).1) ln h, ?_⟩
  rcases step_cases p.eqs with ⟨e, _⟩ | ⟨_, e⟩
  · have hg := P.he
    rw [e] at hg
    have hg' : [] = _ := Option.some.inj hg
    rw [← hg'] at h
    cases h
  · exact e

theorem i_place : ∀ ln ∈ P.i, ln.block = ineqBlock p ∧ step p.ineqs = 1 := by
  intro ln h
  refine ⟨gather_block _ _ _ P.hi (fun ln => ln.block = ineqBlock p) (fun t _ out ho ln hln => (ineq_place _ _ _ t out ho ln hln).1) ln h, ?_⟩
  rcases step_cases p.ineqs with ⟨e, _⟩ | ⟨_, e⟩
  · have hg := P.hi
    rw [e] at hg
    have hg' : [] = _ := Option.some.inj hg
    rw [← hg'] at h
    cases h
  · exact e

omit P in
theorem total_other (x : Nat → K) (ls : List (Ln K)) (c : Nat) (Q : Prop) (h : ∀ ln ∈ ls, ln.block = c ∧ Q) (b i j : Nat) (hb : ¬ (Q ∧ c = b)) :
    total x ls b i j = 0 := by
  apply total_zero
  intro ln hln hh
  exact hb ⟨(h ln hln).2, (h ln hln).1 ▸ hh.1⟩

theorem split_total (x : Nat → K) (b i j : Nat) : f.prog.at x b i j
    = total x (matrixPart p).lines b i j + (total x P.u b i j + (total x P.l b i j + (total x P.e b i j + total x P.i b i j))) := by
  rw [prog_at, total_perm x _ _ P.lines]
  simp only [total_append]

theorem at_matrix (x : Nat → K) (i j : Nat) : f.prog.at x 1 i j = total x (matrixPart p).lines 1 i j := by
  rw [split_total P, total_other x P.u _ _ (u_place P), total_other x P.l _ _ (l_place P), total_other x P.e _ _ (e_place P),
    total_other x P.i _ _ (i_place P)]
  · simp
  all_goals
    simp only [ineqBlock, eqBlock, lowerBlock, upperBlock]
    omega

theorem at_upper (h : step p.upper = 1) (x : Nat → K) (i j : Nat) : f.prog.at x (upperBlock p) i j = total x P.u (upperBlock p) i j := by
  rw [split_total P, total_other x P.l _ _ (l_place P), total_other x P.e _ _ (e_place P), total_other x P.i _ _ (i_place P),
    total_other x (matrixPart p).lines 1 True (fun ln h => ⟨m_place P ln h, trivial⟩)]
  · simp
  all_goals
    simp only [ineqBlock, eqBlock, lowerBlock, upperBlock]
    omega

theorem at_lower (h : step p.lower = 1) (x : Nat → K) (i j : Nat) : f.prog.at x (lowerBlock p) i j = total x P.l (lowerBlock p) i j := by
  rw [split_total P, total_other x P.u _ _ (u_place P), total_other x P.e _ _ (e_place P), total_other x P.i _ _ (i_place P),
    total_other x (matrixPart p).lines 1 True (fun ln h => ⟨m_place P ln h, trivial⟩)]
  · simp
  all_goals
    simp only [ineqBlock, eqBlock, lowerBlock, upperBlock]
    omega

theorem at_eq (h : step p.eqs = 1) (x : Nat → K) (i j : Nat) : f.prog.at x (eqBlock p) i j = total x P.e (eqBlock p) i j := by
  rw [split_total P, total_other x P.u _ _ (u_place P), total_other x P.l _ _ (l_place P), total_other x P.i _ _ (i_place P),
    total_other x (matrixPart p).lines 1 True (fun ln h => ⟨m_place P ln h, trivial⟩)]
  · simp
  all_goals
    simp only [ineqBlock, eqBlock, lowerBlock, upperBlock]
    omega

theorem at_ineq (h : step p.ineqs = 1) (x : Nat → K) (i j : Nat) : f.prog.at x (ineqBlock p) i j = total x P.i (ineqBlock p) i j := by
  rw [split_total P, total_other x P.u _ _ (u_place P), total_other x P.l _ _ (l_place P), total_other x P.e _ _ (e_place P),
    total_other x (matrixPart p).lines 1 True (fun ln h => ⟨m_place P ln h, trivial⟩)]
  · simp
  all_goals
    simp only [ineqBlock, eqBlock, lowerBlock, upperBlock]
    omega

end

/-- The declared blocks. -/
theorem blocks_get (p : Prob K n) (k : Nat) (z : Int) : (blockStruct p)[k]? = some z ↔
    (k = 0 ∧ z = n) ∨ (step p.upper = 1 ∧ k + 1 = upperBlock p ∧ z = -((active p p.upper).length : Int))
    ∨ (step p.lower = 1 ∧ k + 1 = lowerBlock p ∧ z = -((active p p.lower).length : Int))
    ∨ (step p.eqs = 1 ∧ k + 1 = eqBlock p ∧ z = -((2 * p.eqs.length : Nat) : Int))
    ∨ (step p.ineqs = 1 ∧ k + 1 = ineqBlock p ∧ z = -(p.ineqs.length : Int)) := by
  unfold blockStruct ineqBlock eqBlock lowerBlock upperBlock step
  generalize ((active p p.upper).length : Int) = a
  generalize ((active p p.lower).length : Int) = b
  generalize (((2 * p.eqs.length : Nat) : Int)) = c
  generalize ((p.ineqs.length : Int)) = d
  cases p.upper.isEmpty <;> cases p.lower.isEmpty <;> cases p.eqs.isEmpty <;> cases p.ineqs.isEmpty <;>
    (rcases k with _ | _ | _ | _ | _ | k <;> simp <;> omega)

/-- The diagonal block of a section. -/
theorem diag_iff {α : Type} (l : List α) (F : Nat → K) (Q : α → K) (h : ∀ i a, l[i]? = some a → F (i + 1) = Q a) :
    (∀ i : Nat, i < l.length → 0 ≤ F (i + 1)) ↔ ∀ a ∈ l, 0 ≤ Q a := by
  constructor
  · intro hf a ha
    obtain ⟨i, hi, rfl⟩ := List.mem_iff_getElem.1 ha
    rw [← h i _ (List.getElem?_eq_getElem hi)]
    exact hf i hi
  · intro hq i hi
    rw [h i _ (List.getElem?_eq_getElem hi)]
    exact hq _ (List.getElem_mem hi)

theorem mem_active (p : Prob K n) (d : Dict Nat K) (t : Nat × K) :
    t ∈ active p d ↔ t ∈ d ∧ t.1 ≠ 1 ∧ p.known.get t.1 = none ∧ p.semi.get t.1 = none := by
  unfold active
  rw [List.mem_filter]
  simp [and_assoc]

/-- The constraints of the file in terms of the values of the moments. -/
structure Written (p : Prob K n) (v : Nat → K) : Prop where
  psd : PSD fun i j => v (p.mm i j)
  upper : ∀ t ∈ active p p.upper, 0 ≤ t.2 - v t.1
  lower : ∀ t ∈ active p p.lower, 0 ≤ v t.1 - t.2
  eqs : ∀ d ∈ p.eqs, lin d v = 0
  ineqs : ∀ d ∈ p.ineqs, 0 ≤ lin d v

theorem psd_zero (M : Mat n K) (h : n = 0) : PSD M := by
  subst h
  exact ⟨fun i => i.elim0, fun v => by simp [quad]⟩

variable [IsStrictOrderedRing K]

theorem feasible_iff {tol : K} {p : Prob K n} {f : File K} (P : Parts tol p f) (hp : p.Ok) (he : p.Exportable tol) (x v : Nat → K) (h : Agree p x v) :
    f.prog.Feasible x ↔ Written p v := by
  have hmat : ∀ i j : Fin n, f.prog.at x 1 (i.val + 1) (j.val + 1) = v (p.mm i j) := fun i j => by
    rw [at_matrix P]; exact matrix_total p hp he.known x v h i j
  have hup : step p.upper = 1 → ((∀ i : Nat, i < (active p p.upper).length → 0 ≤ f.prog.at x (upperBlock p) (i + 1) (i + 1))
      ↔ ∀ t ∈ active p p.upper, 0 ≤ t.2 - v t.1) := by
    intro hs
    refine diag_iff (active p p.upper) (fun r => f.prog.at x (upperBlock p) r r) (fun t => t.2 - v t.1) ?_
    intro i t ht
    show f.prog.at x _ _ _ = _
    rw [at_upper P hs]
    exact gather_total _ _ _ P.hu x _ i (i + 1) (fun t => t.2 - v t.1) (fun t ht out ho => upper_total tol p x v h _ i t
      (he.tinyUpper _ ((mem_active p _ _).1 (List.fst_mem_of_mem_zipIdx ht)).1) out ho) t ht
  have hlo : step p.lower = 1 → ((∀ i : Nat, i < (active p p.lower).length → 0 ≤ f.prog.at x (lowerBlock p) (i + 1) (i + 1))
      ↔ ∀ t ∈ active p p.lower, 0 ≤ v t.1 - t.2) := by
    intro hs
    refine diag_iff (active p p.lower) (fun r => f.prog.at x (lowerBlock p) r r) (fun t => v t.1 - t.2) ?_
    intro i t ht
    show f.prog.at x _ _ _ = _
    rw [at_lower P hs]
    exact gather_total _ _ _ P.hl x _ i (i + 1) (fun t => v t.1 - t.2) (fun t ht out ho => lower_total tol p x v h _ i t
      (he.tinyLower _ ((mem_active p _ _).1 (List.fst_mem_of_mem_zipIdx ht)).1) out ho) t ht
  have heq : step p.eqs = 1 → ((∀ i : Nat, i < 2 * p.eqs.length → 0 ≤ f.prog.at x (eqBlock p) (i + 1) (i + 1)) ↔ ∀ d ∈ p.eqs, lin d v = 0) := by
    intro hs
    have h1 : ∀ (k : Nat) (d : Dict Nat K), p.eqs[k]? = some d → f.prog.at x (eqBlock p) (2 * k + 1) (2 * k + 1) = lin d v := by
      intro k d hd
      rw [at_eq P hs]
      refine gather_total _ _ _ P.he x _ k (2 * k + 1) (fun d => lin d v) (fun t ht out ho => ?_) d hd
      rw [eq_total p x v h _ t out ho]
      by_cases e : t.2 = k
      · simp [e]
      · rw [if_neg (by omega), if_neg (by omega), if_neg e]
    have h2 : ∀ (k : Nat) (d : Dict Nat K), p.eqs[k]? = some d → f.prog.at x (eqBlock p) (2 * k + 2) (2 * k + 2) = -lin d v := by
      intro k d hd
      rw [at_eq P hs]
      refine gather_total _ _ _ P.he x _ k (2 * k + 2) (fun d => -lin d v) (fun t ht out ho => ?_) d hd
      rw [eq_total p x v h _ t out ho]
      by_cases e : t.2 = k
      · rw [if_neg (by omega), if_pos (by omega), if_pos e]
      · rw [if_neg (by omega), if_neg (by omega), if_neg e]
    constructor
    · intro hf d hd
      obtain ⟨k, hk, rfl⟩ := List.mem_iff_getElem.1 hd
      have g1 := hf (2 * k) (by omega)
      have g2 := hf (2 * k + 1) (by omega)
      rw [h1 k _ (List.getElem?_eq_getElem hk)] at g1
      rw [show 2 * k + 1 + 1 = 2 * k + 2 from rfl, h2 k _ (List.getElem?_eq_getElem hk)] at g2
      linarith
    · intro hq i hi
      rcases Nat.even_or_odd' i with ⟨k, rfl | rfl⟩
      · have hk : k < p.eqs.length := by omega
        rw [h1 k _ (List.getElem?_eq_getElem hk), hq _ (List.getElem_mem hk)]
      · have hk : k < p.eqs.length := by omega
        rw [show 2 * k + 1 + 1 = 2 * k + 2 from rfl, h2 k _ (List.getElem?_eq_getElem hk), hq _ (List.getElem_mem hk), neg_zero]
  have hin : step p.ineqs = 1 → ((∀ i : Nat, i < p.ineqs.length → 0 ≤ f.prog.at x (ineqBlock p) (i + 1) (i + 1)) ↔ ∀ d ∈ p.ineqs, 0 ≤ lin d v) := by
    intro hs
    refine diag_iff p.ineqs (fun r => f.prog.at x (ineqBlock p) r r) (fun d => lin d v) ?_
    intro i d hd
    have hi : i = 0 := by
      have := (List.getElem?_eq_some_iff.1 hd).1
      have := he.ineqs
      omega
    subst hi
    show f.prog.at x _ _ _ = _
    rw [at_ineq P hs]
    refine gather_total _ _ _ P.hi x _ 0 (0 + 1) (fun d => lin d v) (fun t ht out ho => ?_) d hd
    rw [ineq_total p x v h _ t out ho]
    by_cases e : t.2 = 0
    · simp [e]
    · rw [if_neg (by omega), if_neg e]
  have hblocks : f.prog.blocks = blockStruct p := P.blocks
  unfold Sdpa.Feasible
  rw [hblocks]
  simp only [blocks_get]
  constructor
  · intro hf
    refine ⟨?_, ?_, ?_, ?_, ?_⟩
    · by_cases hn : n = 0
      · exact psd_zero _ hn
      · have := hf 0 n (Or.inl ⟨rfl, rfl⟩)
        rw [if_pos (by omega)] at this
        have e : (fun i j : Fin ((n : Int).toNat) => f.prog.at x (0 + 1) (i.val + 1) (j.val + 1)) = fun i j => v (p.mm i j) := by
          funext i j; exact hmat i j
        rw [e] at this
        exact this
    · rcases step_cases p.upper with ⟨e, _⟩ | ⟨_, e⟩
      · rw [e]; simp [active]
      · rw [← hup e]
        have := hf (upperBlock p - 1) _ (Or.inr (Or.inl ⟨e, by unfold upperBlock; omega, rfl⟩))
        rw [if_neg (by omega), show upperBlock p - 1 + 1 = upperBlock p by unfold upperBlock; omega] at this
        simpa using this
    · rcases step_cases p.lower with ⟨e, _⟩ | ⟨_, e⟩
      · rw [e]; simp [active]
      · rw [← hlo e]
        have := hf (lowerBlock p - 1) _ (Or.inr (Or.inr (Or.inl ⟨e, by unfold lowerBlock; omega, rfl⟩)))
        rw [if_neg (by omega), show lowerBlock p - 1 + 1 = lowerBlock p by unfold lowerBlock; omega] at this
        simpa using this
    · rcases step_cases p.eqs with ⟨e, _⟩ | ⟨_, e⟩
      · rw [e]; simp
      · rw [← heq e]
        have := hf (eqBlock p - 1) _ (Or.inr (Or.inr (Or.inr (Or.inl ⟨e, by unfold eqBlock; omega, rfl⟩))))
        rw [if_neg (by omega), show eqBlock p - 1 + 1 = eqBlock p by unfold eqBlock; omega] at this
        simpa only [Int.natAbs_neg, Int.natAbs_natCast] using this
    · rcases step_cases p.ineqs with ⟨e, _⟩ | ⟨_, e⟩
      · rw [e]; simp
      · rw [← hin e]
        have := hf (ineqBlock p - 1) _ (Or.inr (Or.inr (Or.inr (Or.inr ⟨e, by unfold ineqBlock; omega, rfl⟩))))
        rw [if_neg (by omega), show ineqBlock p - 1 + 1 = ineqBlock p by unfold ineqBlock; omega] at this
        simpa only [Int.natAbs_neg, Int.natAbs_natCast] using this
  · intro hw k z hz
    rcases hz with ⟨rfl, rfl⟩ | ⟨e, hk, rfl⟩ | ⟨e, hk, rfl⟩ | ⟨e, hk, rfl⟩ | ⟨e, hk, rfl⟩
    · by_cases hn : n = 0
      · rw [if_neg (by omega)]
        intro i hi
        simp only [Int.natAbs_natCast] at hi
        omega
      · rw [if_pos (by omega)]
        have e : (fun i j : Fin ((n : Int).toNat) => f.prog.at x (0 + 1) (i.val + 1) (j.val + 1)) = fun i j => v (p.mm i j) := by
          funext i j; exact hmat i j
        rw [e]
        exact hw.psd
    · rw [if_neg (by omega), hk]
      simpa only [Int.natAbs_neg, Int.natAbs_natCast] using (hup e).2 hw.upper
    · rw [if_neg (by omega), hk]
      simpa only [Int.natAbs_neg, Int.natAbs_natCast] using (hlo e).2 hw.lower
    · rw [if_neg (by omega), hk]
      simpa only [Int.natAbs_neg, Int.natAbs_natCast] using (heq e).2 hw.eqs
    · rw [if_neg (by omega), hk]
      simpa only [Int.natAbs_neg, Int.natAbs_natCast] using (hin e).2 hw.ineqs

end Verif.SdpWriter
