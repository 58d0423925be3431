import Verif.Theory.Props
import Verif.Theory.CertProps
import Verif.EndToEnd.Witness
/-!
A theory beyond quantum theory: Popescu-Rohrlich boxes in the Bell scenario.
-/
namespace Verif.Theory
open Verif.Common Verif.Scenario Verif.State Verif.CollinsGisin Verif.Components Verif.Orbits Verif.Moment
open Verif.EndToEnd (Input capacity_of_length argsOf argsOf_some toSolver)
open Verif.EndToEnd.ClassicalModel (Capacity)

/-- The Bell scenario with a nonclassical source: the parties 1 and 2, the source 10. -/
def bell : Input where
  D := { names := [1, 2], dag := [(10, [1, 2])], nonclassicalLatents := [], classicalLatents := [], classicalSources := [] }
  outcomes := [2, 2]
  priv := [2, 2]
  levels := [1]
  allOutcomes := false

theorem bell_accepted : bell.Accepted where
  outcomes_length := rfl
  priv_length := rfl
  parties := by decide
  outcomes_pos := by decide
  priv_pos := by decide
  acyclic := ⟨fun p => p, by decide +kernel⟩

theorem bell_short : ∀ v ∈ bell.columns, Capacity bell.scenario (flatnonzero v) := by
  have h : ∀ v ∈ bell.columns, (flatnonzero v).length ≤ 255 := by decide +kernel
  intro v hv
  exact capacity_of_length (h v hv)

/-- The operators of the scenario have copy 1 of the only source. -/
theorem bell_copies : ∀ x ∈ bell.scenario.lexorder, x.copies = [1] ∧ (x.party = 1 ∨ x.party = 2) := by decide +kernel

/-- The events: at most one outcome per party. -/
def bellEvents : List (List Op) :=
  [[]] ++ bell.scenario.lexorder.map (fun x => [x]) ++ bell.scenario.lexorder.flatMap fun x => (bell.scenario.lexorder.filter fun y => decide (y.party ≠ x.party)).map fun y => [x, y]

theorem bell_linked {p : Nat} (h : p = 1 ∨ p = 2) : QuantumLinked bell.D 10 (p - 1) (p - 1) := by
  rcases h with rfl | rfl
  · exact ⟨by decide, Or.inl ⟨1, by decide, by decide, by decide, by decide⟩⟩
  · exact ⟨by decide, Or.inl ⟨2, by decide, by decide, by decide, by decide⟩⟩

theorem bell_apart {x y : Op} (hx : Valid bell.scenario x) (hy : Valid bell.scenario y) (h : ¬ SameMeasurement x y ∧ ¬ Incompatible bell.D x y) : y.party ≠ x.party := by
  obtain ⟨c1, p1⟩ := bell_copies x ((mem_lexorder _).2 hx)
  obtain ⟨c2, _⟩ := bell_copies y ((mem_lexorder _).2 hy)
  intro hp
  apply h.2
  refine ⟨⟨0, 10, 1, by decide, by rw [hp]; exact bell_linked p1, by rw [c1]; rfl, by rw [c2]; rfl⟩, Or.inr ⟨hp.symm, fun hs => h.1 ⟨hp.symm, by rw [c1, c2], hs⟩⟩⟩

theorem bell_joint {e : List Op} (h : Joint bell e) : e ∈ bellEvents := by
  have hm : ∀ x ∈ e, x ∈ bell.scenario.lexorder := fun x hx => (mem_lexorder _).2 (h.valid x hx)
  have hc := h.compat
  have hv := h.valid
  unfold bellEvents
  match e with
  | [] => simp
  | [x] => exact List.mem_append_left _ (List.mem_append_right _ (List.mem_map.2 ⟨x, hm x (by simp), rfl⟩))
  | [x, y] =>
    have := bell_apart (hv x (by simp)) (hv y (by simp)) (by simpa using hc)
    exact List.mem_append_right _ (List.mem_flatMap.2 ⟨x, hm x (by simp), List.mem_map.2 ⟨y, List.mem_filter.2 ⟨hm y (by simp), by simpa using this⟩, rfl⟩⟩)
  | x :: y :: z :: e =>
    exfalso
    rw [List.pairwise_cons, List.pairwise_cons] at hc
    have h1 := bell_apart (hv x (by simp)) (hv y (by simp)) (hc.1 y (by simp))
    have h2 := bell_apart (hv x (by simp)) (hv z (by simp)) (hc.1 z (by simp))
    have h3 := bell_apart (hv y (by simp)) (hv z (by simp)) (hc.2.1 z (by simp))
    have q1 := (bell_copies x (hm x (by simp))).2
    have q2 := (bell_copies y (hm y (by simp))).2
    have q3 := (bell_copies z (hm z (by simp))).2
    omega

/-- Popescu-Rohrlich boxes: uniform outcomes with `a ⊕ b = x y`. -/
def prProb : List Op → ℚ
  | [] => 1
  | [_] => 1 / 2
  | [x, y] => if (decide (x.outcome ≠ y.outcome)) = decide (x.setting = 1 ∧ y.setting = 1) then 1 / 2 else 0
  | _ => 0

theorem pr_perm : ∀ e ∈ bellEvents, prProb e = prProb e.reverse := by decide +kernel
theorem pr_nonneg : ∀ e ∈ bellEvents, 0 ≤ prProb e := by decide +kernel
theorem pr_marginal : ∀ e ∈ bellEvents, ∀ x ∈ e.head?, ((List.range (bell.scenario.outcomes (x.party - 1))).map fun o => prProb ({ x with outcome := o } :: e.tail)).sum = prProb e.tail := by
  decide +kernel

theorem bell_act {g : Nat → Nat → Nat} (hg : Symmetry.Relabelling bell.scenario g) {x : Op} (hx : x ∈ bell.scenario.lexorder) : Symmetry.act g x = x := by
  have h1 : max (bell.scenario.level 0) 1 = 1 := by decide
  have := (hg 0 (by decide)).2.1 1 (by omega) (by omega)
  have e : g 0 1 = 1 := by omega
  unfold Symmetry.act
  have hc := (bell_copies x hx).1
  rw [show x.copies.mapIdx g = x.copies by rw [hc]; simp [e]]

/-- The theory of these boxes. -/
def prBox : InflatedTheory bell ℚ where
  prob := prProb
  perm := by
    intro e e' h hp
    have he := bell_joint h
    have hr := pr_perm e he
    match e with
    | [] => rw [List.nil_perm.1 hp]
    | [x] => rw [List.singleton_perm.1 hp]
    | [x, y] =>
      have hl := hp.length_eq
      match e' with
      | [u, v] =>
        have hu : u ∈ [x, y] := hp.symm.subset (by simp)
        simp only [List.mem_cons, List.not_mem_nil, or_false] at hu
        rcases hu with rfl | rfl
        · rw [List.singleton_perm.1 ((List.perm_cons u).1 hp)]
        · have h2 : [x, u].Perm [u, x] := List.Perm.swap _ _ _
          rw [← List.singleton_perm.1 ((List.perm_cons u).1 (h2.symm.trans hp))]
          exact hr
    | x :: y :: z :: e => 
      exfalso
      have : ∀ e ∈ bellEvents, e.length ≤ 2 := by decide +kernel
      have := this _ he
      simp at this
  unit := rfl
  nonneg := fun e h => pr_nonneg e (bell_joint h)
  marginal := fun x e h => pr_marginal _ (bell_joint h) x rfl
  symmetric := by
    intro g hg e h
    congr 1
    rw [List.map_congr_left fun x hx => bell_act hg ((mem_lexorder _).2 (h.valid x hx)), List.map_id']
  independent := by
    intro e f h hs
    rcases e with _ | ⟨x, e⟩
    · simp [prProb]
    rcases f with _ | ⟨y, f⟩
    · simp [prProb]
    exfalso
    obtain ⟨c1, _⟩ := bell_copies x ((mem_lexorder _).2 (h.valid x (by simp)))
    obtain ⟨c2, _⟩ := bell_copies y ((mem_lexorder _).2 (h.valid y (by simp)))
    exact hs x (by simp) y (by simp) ⟨0, 1, by decide, by rw [c1]; rfl, by rw [c2]; rfl⟩

/-- The distribution of the boxes. -/
def pr : List Nat → Rat
  | [a, b, x, y] => if (decide (a ≠ b)) = decide (x = 1 ∧ y = 1) then 1 / 2 else 0
  | _ => 0

/-- The CHSH value is 4, the largest value any theory allows. -/
example : (let c := fun x y => pr [0, 0, x, y] + pr [1, 1, x, y] - pr [0, 1, x, y] - pr [1, 0, x, y]
    c 0 0 + c 0 1 + c 1 0 - c 1 1) = 4 := by decide +kernel

theorem pr_generated : prBox.Generates fun t => ((pr t : Rat) : ℚ) := by
  intro a ha x hx e he
  have key : ∀ a ∈ ndindex ((List.range bell.scenario.nParties).map bell.scenario.outcomes), ∀ x ∈ ndindex ((List.range bell.scenario.nParties).map bell.observed.priv),
      pr (a ++ x) = prProb [⟨1, [1], x.getD 0 0, a.getD 0 0⟩, ⟨2, [1], x.getD 1 0, a.getD 1 0⟩] := by decide +kernel
  show ((pr (a ++ x) : Rat) : ℚ) = prProb e
  rw [key a ha x hx]
  have hp : e.map (·.party) = [1, 2] := he.parties
  obtain ⟨u, v, rfl⟩ : ∃ u v, e = [u, v] := List.length_eq_two.1 (by simpa using congrArg List.length hp)
  · 
    simp only [List.map_cons, List.map_nil, List.cons.injEq, and_true] at hp
    have hu : u = ⟨1, [1], x.getD 0 0, a.getD 0 0⟩ := by
      have h1 := (bell_copies u ((mem_lexorder _).2 (he.valid u (by simp)))).1
      have h2 := he.outcome u (by simp)
      have h3 := he.setting u (by simp)
      rw [hp.1] at h2 h3
      have hs := (he.valid u (by simp)).setting_lt
      rw [hp.1] at hs
      have hd : ∀ k ∈ List.range 2, decodeSetting (bell.dims 0) k = some [k] := by decide +kernel
      rw [hd _ (List.mem_range.2 hs)] at h3
      have h3 := (List.cons.inj (Option.some.inj h3)).1
      obtain ⟨pp, cc, ss, oo⟩ := u
      simp only at h1 h2 h3 hp
      rw [h1, h2, h3, hp.1]
    have hv : v = ⟨2, [1], x.getD 1 0, a.getD 1 0⟩ := by
      have h1 := (bell_copies v ((mem_lexorder _).2 (he.valid v (by simp)))).1
      have h2 := he.outcome v (by simp)
      have h3 := he.setting v (by simp)
      rw [hp.2] at h2 h3
      have hs := (he.valid v (by simp)).setting_lt
      rw [hp.2] at hs
      have hd : ∀ k ∈ List.range 2, decodeSetting (bell.dims 1) k = some [k] := by decide +kernel
      rw [hd _ (List.mem_range.2 hs)] at h3
      have h3 := (List.cons.inj (Option.some.inj h3)).1
      obtain ⟨pp, cc, ss, oo⟩ := v
      simp only at h1 h2 h3 hp
      rw [h1, h2, h3, hp.2]
    rw [hu, hv]

/-- The boxes' distribution is accepted, fixes all nine moments, and the problem built for MOSEK is feasible. -/
example : ∃ (E : Env Mon) (c : Call Mon) (a : Args) (t : LpSolver.Task ℚ) (x : Nat → ℚ),
    bell.setDistribution pr false false = some c ∧ solverArgs E (run E (fun _ => ⟨true, "", 0⟩) [c]) = some a ∧
    a.known.length = 9 ∧ LpSolver.buildTask ⟨false, true, false, false⟩ (toSolver bell.columns.length a) = some t ∧ t.Feasible x := by
  have hs : ((argsOf bell pr false).bind fun r => (LpSolver.buildTask ⟨false, true, false, false⟩ (toSolver (F := ℚ) bell.columns.length r.2.2)).map fun _ =>
      r.2.2.known.length) = some 9 := by decide +kernel
  obtain ⟨⟨E, c, a⟩, h, hs⟩ := Option.bind_eq_some_iff.1 hs
  obtain ⟨t, ht, hk⟩ := Option.map_eq_some_iff.1 hs
  obtain ⟨h1, h2, h3⟩ := argsOf_some h
  have ht : LpSolver.buildTask ⟨false, true, false, false⟩ (toSolver (F := ℚ) bell.columns.length a) = some t := ht
  obtain ⟨x, hx, _⟩ := C58_primal_is_feasible bell_accepted prBox bell_short h1 (fun _ => ⟨true, "", 0⟩) [c]
    (by
      intro c' hc'
      rw [List.mem_singleton] at hc'
      subst hc'
      exact .distribution pr_generated (by simp) h2) h3 rfl rfl rfl ht
  exact ⟨E, c, a, t, x, h2, h3, hk, ht, hx⟩

/-- A distribution in which `B`'s outcome depends on `A`'s setting. -/
def signalling : List Nat → Rat := fun t => if t = [0, 0, 0, 0] ∨ t = [0, 1, 0, 1] ∨ t = [1, 0, 1, 0] ∨ t = [0, 0, 1, 1] then 1 else 0

/-- Multipliers for the sixteen inequalities and the nine known values. -/
def bellMultipliers : List ℚ := [0, 0, 0, 0, 0, 0, 0, 0, 0, 0, 0, 0, 0, 0, -1, 0, 0, 0, 1, 0, 0, 0, 0, 0, -1]

/-- The certificate for the signalling distribution is p(A=0|x=1) - p(A=0, B=0|x=1, y=1), with value -1 for it; no theory gives a negative value. -/
theorem bell_certificate : ∃ (E : Env Mon) (c : Call Mon) (a : Args) (p : LpSolver.Prep ℚ), bell.lpEnv (fun _ => "") = some E ∧ bell.setDistribution signalling false false = some c ∧
    solverArgs E (run E (fun _ => ⟨true, "", 0⟩) [c]) = some a ∧ a.lower = [] ∧ a.upper = [] ∧ a.objective = [] ∧
    LpSolver.prepare ⟨true, true, false, false⟩ (toSolver bell.columns.length a) = some p ∧
    LpSolver.Returned ⟨true, true, false, false⟩ (toSolver bell.columns.length a) (fun j => (LpSolver.dense p.objective : List ℚ).getD j 0) bellMultipliers ∧
    LpSolver.certificate ⟨true, true, false, false⟩ p bell.columns.length bellMultipliers = [(2, 1), (8, -1)] ∧
    LpSolver.dictAt (LpSolver.certificate ⟨true, true, false, false⟩ p bell.columns.length bellMultipliers) (fun i => (((Dict.get a.known i).getD 0 : Rat) : ℚ)) = -1 ∧
    0 ≤ LpSolver.certAt bell.columns.length ⟨true, true, false, false⟩ p bellMultipliers fun i => prBox.event (flatnonzero (bell.columns.getD i [])) := by
  have hs : (argsOf bell signalling false).isSome = true := by decide +kernel
  obtain ⟨⟨E, c, a⟩, h⟩ := Option.isSome_iff_exists.1 hs
  obtain ⟨h1, h2, h3⟩ := argsOf_some h
  have he : ((argsOf bell signalling false).map fun r => (r.2.2.lower, r.2.2.upper, r.2.2.objective)) = some ([], [], []) := by decide +kernel
  have hb : ((argsOf bell signalling false).bind fun r => (LpSolver.prepare ⟨true, true, false, false⟩ (toSolver (F := ℚ) bell.columns.length r.2.2)).map fun p =>
      LpSolver.certificate ⟨true, true, false, false⟩ p bell.columns.length bellMultipliers) = some [(2, 1), (8, -1)] := by
    decide +kernel
  have ht : ((argsOf bell signalling false).bind fun r => (LpSolver.buildTask ⟨true, true, false, false⟩ (toSolver (F := ℚ) bell.columns.length r.2.2)).map fun t =>
      decide (t.numvar ≤ bellMultipliers.length ∧
        (∀ i, i < t.numcon → LpSolver.sat (t.bkc.getD i .fr) (t.blc.getD i 0) (t.buc.getD i 0) (LpSolver.rowAt t.ents (fun i => bellMultipliers.getD i 0) i)) ∧
        (∀ j, j < t.numvar → LpSolver.sat (t.bkx.getD j .fr) (t.blx.getD j 0) (t.bux.getD j 0) (bellMultipliers.getD j 0)))) = some true := by
    decide +kernel
  have hv : ((argsOf bell signalling false).map fun r => LpSolver.dictAt [(2, (1 : ℚ)), (8, -1)] fun i => (((Dict.get r.2.2.known i).getD 0 : Rat) : ℚ)) = some (-1) := by
    decide +kernel
  rw [h] at he hb ht hv
  simp only [Option.map_some, Option.some.injEq] at hv
  simp only [Option.map_some, Option.some.injEq, Prod.mk.injEq] at he
  simp only [Option.bind_some, Option.map_eq_some_iff] at hb ht
  obtain ⟨p, hp, hcert⟩ := hb
  obtain ⟨t, htt, hdec⟩ := ht
  obtain ⟨hn, hc1, hc2⟩ := of_decide_eq_true hdec
  have hret : LpSolver.Returned ⟨true, true, false, false⟩ (toSolver bell.columns.length a) (fun j => (LpSolver.dense p.objective : List ℚ).getD j 0) bellMultipliers :=
    ⟨t, htt, by rw [if_pos rfl]; exact ⟨hn, ⟨hc1, hc2⟩⟩⟩
  exact ⟨E, c, a, p, h1, h2, h3, he.1, he.2.1, he.2.2, hp, hret, hcert, by rw [hcert]; exact hv,
    C59_certificate_is_valid_inequality bell_accepted prBox bell_short h1 (fun _ => ⟨true, "", 0⟩) [] h2 h3 he.1 he.2.1 he.2.2 hp hret⟩

end Verif.Theory
