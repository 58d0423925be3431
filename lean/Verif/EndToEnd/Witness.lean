import Verif.EndToEnd.CertProps
import Mathlib.Tactic.NormNum
/-!
Concrete cases of the end-to-end theorems: the instrumental scenario with a random source, and the bilocality scenario with an inflated source and linearised constraints.
-/
namespace Verif.EndToEnd
open Verif.Common Verif.Scenario Verif.Orbits Verif.Components Verif.Moment Verif.State Verif.CollinsGisin
open ClassicalModel (Capacity)

/-- Events of at most 255 operators are within the capacity. -/
theorem capacity_of_length {S : Scenario} {mon : List Nat} (h : mon.length ≤ 255) : Capacity S mon := by
  intro reps hr hp
  have hnd : reps.Nodup := hp.imp fun {a b} hab hne => by
    subst hne
    exact hab .refl
  exact le_trans (hnd.subperm fun x hx => hr x hx).length_le h

/-- The distribution of a model, as an array indexed by outcomes and settings. -/
def ClassicalModel.array {S : Scenario} {O : Observed} {Λ : Type} [Fintype Λ] (M : ClassicalModel S O Λ ℚ) (t : List Nat) : ℚ :=
  M.prob (fun p => t.getD p 0) fun p => t.getD (S.nParties + p) 0

theorem realises_array {I : Input} {Λ : Type} [Fintype Λ] (M : ClassicalModel I.scenario I.observed Λ ℚ)
    (hpar : ∀ p < I.D.names.length, ∀ q ∈ I.parents p, q < I.D.names.length) : I.Realises M M.array := by
  intro a ha x hx
  have hal : a.length = I.scenario.nParties := by
    rw [mem_ndindex] at ha; simpa using ha.1
  have key : ∀ p, p < I.scenario.nParties → (a ++ x).getD p 0 = a.getD p 0 := fun p hp => List.getD_append _ _ _ _ (by omega)
  show ((M.array (a ++ x) : Rat) : ℚ) = _
  unfold ClassicalModel.array ClassicalModel.prob
  apply expect_congr
  intro l
  congr 1
  apply List.map_congr_left
  intro p hp
  have hp := List.mem_range.1 hp
  dsimp only
  rw [key p hp, List.getD_append_right _ _ _ _ (by omega), hal, Nat.add_sub_cancel_left]
  congr 1
  apply List.map_congr_left
  intro q hq
  exact key q (hpar p hp q hq)

/-- The instrumental scenario: node `1` is `A`, with two settings, `2` is its child `B`, `10` is a classical source connected to both. -/
def instr : Input where
  D := { names := [1, 2], dag := [(10, [1, 2]), (1, [2])], nonclassicalLatents := [], classicalLatents := [], classicalSources := [10] }
  outcomes := [2, 2]
  priv := [2, 1]
  levels := [1]
  allOutcomes := false

theorem instr_accepted : instr.Accepted where
  outcomes_length := rfl
  priv_length := rfl
  parties := by decide
  outcomes_pos := by decide
  priv_pos := by decide
  acyclic := ⟨fun p => p, by decide +kernel⟩

/-- A model in which the outcomes are functions of the settings, the parents' outcomes and the sources. -/
def functional (S : Scenario) (O : Observed) {Λ : Type} [Fintype Λ] (w : Λ → ℚ) (hw : ∀ v, 0 ≤ w v) (hs : ∑ v, w v = 1) (g : Nat → Nat → List Nat → (Fin S.nSources → Λ) → Nat)
    (hlt : ∀ p < S.nParties, ∀ x y l, g p x y l < S.outcomes p)
    (hloc : ∀ p x y l m, (∀ s : Fin S.nSources, S.hyp s p = true → l s = m s) → g p x y l = g p x y m) : ClassicalModel S O Λ ℚ where
  source := fun _ => w
  response := fun p x y a l => if a = g p x y l then 1 else 0
  source_nonneg := fun _ v => hw v
  source_sum := fun _ => hs
  response_nonneg := by
    intro p x y a l
    split
    · norm_num
    · exact le_refl _
  response_sum := by
    intro p hp x _ y _ l
    have h := hlt p hp x y l
    have : ∀ n k : Nat, k < n → ((List.range n).map fun a => if a = k then (1 : ℚ) else 0).sum = 1 := by
      intro n
      induction n with
      | zero => intro k hk; omega
      | succ n ih =>
        intro k hk
        rw [List.range_succ, List.map_append, List.sum_append, List.map_singleton, List.sum_singleton]
        by_cases hkn : k = n
        · subst hkn
          rw [if_pos rfl]
          have : ((List.range k).map fun a => if a = k then (1 : ℚ) else 0).sum = 0 := by
            apply List.sum_eq_zero
            intro z hz
            obtain ⟨b, hb, rfl⟩ := List.mem_map.1 hz
            rw [if_neg (by have := List.mem_range.1 hb; omega)]
          rw [this, zero_add]
        · rw [ih k (by omega), if_neg (fun e => hkn e.symm), add_zero]
    exact this _ _ h
  response_local := by
    intro p x y a l m h
    rw [hloc p x y l m h]

/-- A random bit λ, `A` answers `x ∧ λ`, `B` answers the exclusive or of `A`'s outcome and λ. -/
def instrModel : ClassicalModel instr.scenario instr.observed Bool ℚ :=
  functional _ _ (fun _ => 1 / 2) (by intro; norm_num) (by simp)
    (fun p x y l => if p = 0 then if x = 1 ∧ l ⟨0, by decide⟩ = true then 1 else 0 else if p = 1 then if (y = [1]) ≠ (l ⟨0, by decide⟩ = true) then 1 else 0 else 0)
    (by
      intro p hp x y l
      have ho : instr.scenario.outcomes p = 2 := by
        have hp : p < 2 := hp
        rcases p with _ | _ | p
        · rfl
        · rfl
        · omega
      rw [ho]
      split
      · split <;> omega
      · split
        · split <;> omega
        · omega)
    (by
      intro p x y l m h
      by_cases h0 : p = 0
      · subst h0
        rw [h ⟨0, by decide⟩ (by decide +kernel)]
      · by_cases h1 : p = 1
        · subst h1
          rw [h ⟨0, by decide⟩ (by decide +kernel)]
        · rw [if_neg h0, if_neg h0, if_neg h1, if_neg h1])

/-- The distribution of the model: probability 1/2 for `A = 1, B = 0` when `x = 1`. -/
example : instrModel.array [1, 0, 1, 0] = 1 / 2 := by decide +kernel

/-- The problem given to the solver after `set_distribution`. -/
def argsOf (I : Input) (P : List Nat → Rat) (lpi : Bool) : Option (Env Mon × Call Mon × Args) :=
  (I.lpEnv fun _ => "").bind fun E => (I.setDistribution P lpi false).bind fun c =>
    (solverArgs E (run E (fun _ => ⟨true, "", 0⟩) [c])).map fun a => (E, c, a)

theorem argsOf_some {I : Input} {P : List Nat → Rat} {lpi : Bool} {E : Env Mon} {c : Call Mon} {a : Args} (h : argsOf I P lpi = some (E, c, a)) :
    I.lpEnv (fun _ => "") = some E ∧ I.setDistribution P lpi false = some c ∧ solverArgs E (run E (fun _ => ⟨true, "", 0⟩) [c]) = some a := by
  unfold argsOf at h
  simp only [Option.bind_eq_some_iff, Option.map_eq_some_iff, Prod.mk.injEq] at h
  obtain ⟨E', h1, c', h2, a', h3, rfl, rfl, rfl⟩ := h
  exact ⟨h1, h2, h3⟩

theorem instr_short : ∀ v ∈ instr.columns, Capacity instr.scenario (flatnonzero v) := by
  intro v hv
  apply capacity_of_length
  have : ∀ v ∈ instr.columns, (flatnonzero v).length ≤ 255 := by decide +kernel
  exact this v hv

/-- The distribution of the model is accepted, fixes nine moments and the model's probabilities solve the problem, for MOSEK too. -/
example : ∃ (E : Env Mon) (c : Call Mon) (a : Args) (t : LpSolver.Task ℚ) (x : Nat → ℚ),
    instr.setDistribution instrModel.array false false = some c ∧ solverArgs E (run E (fun _ => ⟨true, "", 0⟩) [c]) = some a ∧
    a.known.length = 9 ∧ LpSolver.buildTask ⟨false, true, false, false⟩ (toSolver instr.columns.length a) = some t ∧ t.Feasible x := by
  have hs : (argsOf instr instrModel.array false).isSome = true := by decide +kernel
  obtain ⟨⟨E, c, a⟩, h⟩ := Option.isSome_iff_exists.1 hs
  obtain ⟨h1, h2, h3⟩ := argsOf_some h
  have hk : ((argsOf instr instrModel.array false).map fun r => r.2.2.known.length) = some 9 := by decide +kernel
  have ht : ((argsOf instr instrModel.array false).bind fun r => LpSolver.buildTask ⟨false, true, false, false⟩ (toSolver (F := ℚ) instr.columns.length r.2.2)).isSome = true := by
    decide +kernel
  rw [h] at hk ht
  obtain ⟨t, ht⟩ := Option.isSome_iff_exists.1 ht
  have ht : LpSolver.buildTask ⟨false, true, false, false⟩ (toSolver (F := ℚ) instr.columns.length a) = some t := ht
  obtain ⟨x, hx, _⟩ := C52_primal_is_feasible instr_accepted instrModel instr_short h1 (fun _ => ⟨true, "", 0⟩) [c]
    (by
      intro c' hc'
      rw [List.mem_singleton] at hc'
      subst hc'
      exact .distribution (realises_array _ (by decide +kernel)) (by simp) h2) h3 rfl rfl rfl ht
  exact ⟨E, c, a, t, x, h2, h3, Option.some.inj hk, ht, hx⟩

/-- `x = 0` gives `a = 0, b = 0`; `x = 1` gives `a = 0, b = 1`: `B` would have to know `x`. -/
def signalling (t : List Nat) : ℚ := if t = [0, 0, 0, 0] ∨ t = [0, 1, 1, 0] then 1 else 0

instance (k : LpSolver.BoundKey) (l u v : ℚ) : Decidable (LpSolver.sat k l u v) := by
  unfold LpSolver.sat
  cases k <;> infer_instance

/-- Multipliers for the inequalities, the equalities and the nine known values: they prove that p(a=0, b=0 | x=0) + p(a=0, b=1 | x=1) ≤ 1. -/
def instrMultipliers : List ℚ :=
  [0, -1, 0, -1, 0, 0, -1, -1, 0, -1, 0, -1, 0, 0, -1, -1, 0, 0, 0, -1, -1, 0, 0, 0, 0, -1, 1, 0, 0, 0, 0, 0, 0, 0, 0, 0, 1, 0, 0, -1, 0, -1, 0, 1, 0]

/-- These multipliers are feasible for the dual of the problem for the signalling distribution, with value -1, and the certificate is
1 - p(A=0|x=1) - p(A=0, B=0|x=0) + p(A=0, B=0|x=1), which is 1/2 for the model above and -1 for the signalling distribution. -/
theorem instr_certificate : ∃ (E : Env Mon) (c : Call Mon) (a : Args) (p : LpSolver.Prep ℚ), instr.lpEnv (fun _ => "") = some E ∧ instr.setDistribution signalling false false = some c ∧
    solverArgs E (run E (fun _ => ⟨true, "", 0⟩) [c]) = some a ∧ a.lower = [] ∧ a.upper = [] ∧ a.objective = [] ∧
    LpSolver.prepare ⟨true, true, false, false⟩ (toSolver instr.columns.length a) = some p ∧
    LpSolver.Returned ⟨true, true, false, false⟩ (toSolver instr.columns.length a) (fun j => (LpSolver.dense p.objective : List ℚ).getD j 0) instrMultipliers ∧
    LpSolver.certificate ⟨true, true, false, false⟩ p instr.columns.length instrMultipliers = [(0, 1), (3, -1), (11, -1), (15, 1)] ∧
    LpSolver.dictAt (LpSolver.certificate ⟨true, true, false, false⟩ p instr.columns.length instrMultipliers) (fun i => (((Dict.get a.known i).getD 0 : Rat) : ℚ)) = -1 ∧
    0 ≤ LpSolver.certAt instr.columns.length ⟨true, true, false, false⟩ p instrMultipliers fun i => instrModel.vec (instr.columns.getD i []) := by
  have hs : (argsOf instr signalling false).isSome = true := by decide +kernel
  obtain ⟨⟨E, c, a⟩, h⟩ := Option.isSome_iff_exists.1 hs
  obtain ⟨h1, h2, h3⟩ := argsOf_some h
  have he : ((argsOf instr signalling false).map fun r => (r.2.2.lower, r.2.2.upper, r.2.2.objective)) = some ([], [], []) := by decide +kernel
  have hb : ((argsOf instr signalling false).bind fun r => (LpSolver.prepare ⟨true, true, false, false⟩ (toSolver (F := ℚ) instr.columns.length r.2.2)).map fun p =>
      LpSolver.certificate ⟨true, true, false, false⟩ p instr.columns.length instrMultipliers) = some [(0, 1), (3, -1), (11, -1), (15, 1)] := by
    decide +kernel
  have ht : ((argsOf instr signalling false).bind fun r => (LpSolver.buildTask ⟨true, true, false, false⟩ (toSolver (F := ℚ) instr.columns.length r.2.2)).map fun t =>
      decide (t.numvar ≤ instrMultipliers.length ∧
        (∀ i, i < t.numcon → LpSolver.sat (t.bkc.getD i .fr) (t.blc.getD i 0) (t.buc.getD i 0) (LpSolver.rowAt t.ents (fun i => instrMultipliers.getD i 0) i)) ∧
        (∀ j, j < t.numvar → LpSolver.sat (t.bkx.getD j .fr) (t.blx.getD j 0) (t.bux.getD j 0) (instrMultipliers.getD j 0)))) = some true := by
    decide +kernel
  have hv : ((argsOf instr signalling false).map fun r => LpSolver.dictAt [(0, (1 : ℚ)), (3, -1), (11, -1), (15, 1)] fun i => (((Dict.get r.2.2.known i).getD 0 : Rat) : ℚ)) = some (-1) := by
    decide +kernel
  rw [h] at he hb ht hv
  simp only [Option.map_some, Option.some.injEq] at hv
  simp only [Option.map_some, Option.some.injEq, Prod.mk.injEq] at he
  simp only [Option.bind_some, Option.map_eq_some_iff] at hb ht
  obtain ⟨p, hp, hcert⟩ := hb
  obtain ⟨t, htt, hdec⟩ := ht
  obtain ⟨hn, hc1, hc2⟩ := of_decide_eq_true hdec
  have hret : LpSolver.Returned ⟨true, true, false, false⟩ (toSolver instr.columns.length a) (fun j => (LpSolver.dense p.objective : List ℚ).getD j 0) instrMultipliers :=
    ⟨t, htt, by rw [if_pos rfl]; exact ⟨hn, ⟨hc1, hc2⟩⟩⟩
  exact ⟨E, c, a, p, h1, h2, h3, he.1, he.2.1, he.2.2, hp, hret, hcert, by rw [hcert]; exact hv,
    C53_certificate_is_valid_inequality instr_accepted instrModel instr_short h1 (fun _ => ⟨true, "", 0⟩) [] h2 h3 he.1 he.2.1 he.2.2 hp hret⟩

/-! The bilocality scenario (`A - B - C`, two sources) next to a lonely party `D`, with two copies of the first source and linearised constraints. -/

/-- Nodes `1, 2, 3, 4` are `A, B, C, D`; source `10` is shared by `A` and `B`, source `11` by `B` and `C`, source `12` belongs to `D`. -/
def bilocal : Input where
  D := { names := [1, 2, 3, 4], dag := [(10, [1, 2]), (11, [2, 3]), (12, [4])], nonclassicalLatents := [], classicalLatents := [], classicalSources := [10, 11, 12] }
  outcomes := [2, 2, 2, 2]
  priv := [1, 1, 1, 1]
  levels := [2, 1, 1]
  allOutcomes := false

theorem bilocal_accepted : bilocal.Accepted where
  outcomes_length := rfl
  priv_length := rfl
  parties := by decide
  outcomes_pos := by decide
  priv_pos := by decide
  acyclic := ⟨fun p => p, by decide +kernel⟩

/-- All parties answer 0. -/
def bilocalModel : ClassicalModel bilocal.scenario bilocal.observed Unit ℚ :=
  functional _ _ (fun _ => 1) (by intro; norm_num) (by simp) (fun _ _ _ _ => 0)
    (by
      intro p hp x y l
      have hp : p < 4 := hp
      rcases p with _ | _ | _ | _ | p
      · decide
      · decide
      · decide
      · decide
      · omega)
    (by intros; rfl)

/-- Every event has probability 0 or 1. -/
theorem bilocalModel_event (e : List Nat) : bilocalModel.event e = 0 ∨ bilocalModel.event e = 1 := by
  have hr : ∀ (r : Nat) (ν : Copy bilocal.scenario → Unit), bilocalModel.rankResponse r ν = 0 ∨ bilocalModel.rankResponse r ν = 1 := by
    intro r ν
    unfold ClassicalModel.rankResponse ClassicalModel.opResponse
    split
    · split
      · show (if _ then (1 : ℚ) else 0) = 0 ∨ (if _ then (1 : ℚ) else 0) = 1
        split
        · exact .inr rfl
        · exact .inl rfl
      · exact .inl rfl
    · exact .inr rfl
  have hp : ∀ (e : List Nat) (ν : Copy bilocal.scenario → Unit), (e.map fun r => bilocalModel.rankResponse r ν).prod = 0 ∨ (e.map fun r => bilocalModel.rankResponse r ν).prod = 1 := by
    intro e ν
    induction e with
    | nil => exact .inr rfl
    | cons r e ih =>
      rw [List.map_cons, List.prod_cons]
      rcases hr r ν with h | h <;> rcases ih with h' | h' <;> rw [h, h'] <;> norm_num
  unfold ClassicalModel.event expect
  have hsrc : ∀ c : Copy bilocal.scenario, bilocalModel.source c.1 () = 1 := fun _ => rfl
  rw [Fintype.sum_unique]
  have : (∏ i : Copy bilocal.scenario, bilocalModel.source i.1 ((default : Copy bilocal.scenario → Unit) i)) = 1 := Finset.prod_eq_one fun i _ => hsrc i
  rw [this, one_mul]
  exact hp e _

theorem bilocal_noTiny (E : Env Mon) : NoTiny E bilocalModel.event := by
  have key : ∀ f : Mon, valF bilocalModel.event f = 0 ∨ valF bilocalModel.event f = 1 := by
    intro f
    unfold valF
    induction f with
    | nil => exact .inr rfl
    | cons r e ih =>
      rw [List.map_cons, List.prod_cons]
      rcases bilocalModel_event r with h | h <;> rcases ih with h' | h' <;> rw [h, h'] <;> norm_num
  intro m _ f _ hf
  rcases key f with h | h
  · exact h
  · rw [h] at hf
    norm_num at hf

theorem bilocal_short : ∀ v ∈ bilocal.columns, Capacity bilocal.scenario (flatnonzero v) := by
  intro v hv
  apply capacity_of_length
  have : ∀ v ∈ bilocal.columns, (flatnonzero v).length ≤ 255 := by decide +kernel
  exact this v hv

/-- With linearised constraints the distribution fixes 28 of the 40 moments and relates 6 pairs of moments; the model's probabilities solve the problem. -/
example : ∃ (E : Env Mon) (c : Call Mon) (a : Args) (t : LpSolver.Task ℚ) (x : Nat → ℚ),
    bilocal.setDistribution bilocalModel.array true false = some c ∧ solverArgs E (run E (fun _ => ⟨true, "", 0⟩) [c]) = some a ∧
    a.known.length = 28 ∧ a.equalities.length = 6 ∧ LpSolver.buildTask ⟨false, true, false, false⟩ (toSolver bilocal.columns.length a) = some t ∧ t.Feasible x := by
  have hs : ((argsOf bilocal bilocalModel.array true).bind fun r => (LpSolver.buildTask ⟨false, true, false, false⟩ (toSolver (F := ℚ) bilocal.columns.length r.2.2)).map fun _ =>
      (r.2.2.known.length, r.2.2.equalities.length)) = some (28, 6) := by decide +kernel
  obtain ⟨⟨E, c, a⟩, h, hs⟩ := Option.bind_eq_some_iff.1 hs
  obtain ⟨t, ht, hk⟩ := Option.map_eq_some_iff.1 hs
  obtain ⟨h1, h2, h3⟩ := argsOf_some h
  have ht : LpSolver.buildTask ⟨false, true, false, false⟩ (toSolver (F := ℚ) bilocal.columns.length a) = some t := ht
  obtain ⟨x, hx, _⟩ := C52_primal_is_feasible bilocal_accepted bilocalModel bilocal_short h1 (fun _ => ⟨true, "", 0⟩) [c]
    (by
      intro c' hc'
      rw [List.mem_singleton] at hc'
      subst hc'
      exact .distribution (realises_array _ (by decide +kernel)) (fun _ => bilocal_noTiny E) h2) h3 rfl rfl rfl ht
  simp only [Prod.mk.injEq] at hk
  exact ⟨E, c, a, t, x, h2, h3, hk.1, hk.2, ht, hx⟩

end Verif.EndToEnd
