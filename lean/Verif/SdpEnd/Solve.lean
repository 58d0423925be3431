import Verif.SdpEnd.Psd
import Verif.SdpEnd.State
import Verif.SdpState.Props
/-!
The values of a model of the inflated network solve the semidefinite program which is given to the solver, after any history of truthful calls.
-/
namespace Verif.SdpEnd
open Verif.Common Verif.Canon Verif.Canon.Spec Verif.Scenario Verif.Components Verif.Moment Verif.MomentMatrix Verif.SdpRepr Verif.SymMM Verif.Normalization
open Verif.State (Dict Mon)
open Verif.EndToEnd (Input)

variable {I : Input} {R : Type} [Ring R] [StarRing R] [Algebra ℝ R] (M : InflatedModel I R)

/-- The matrix of indices is symmetric. -/
theorem sym_symm {cols : List (List Nat)} (hc : ColsOk (nOps I) (notcomm I) (orthomat I) (allCommute I) cols)
    {ch : Choice} {name : Atom → String} {B : Built} (hB : build I cols ch name = some B) {i j : Nat} (hi : i < cols.length) (hj : j < cols.length) :
    B.sym[i * cols.length + j]? = B.sym[j * cols.length + i]? := by
  obtain ⟨orbits, repr, c, eqs, h1, h2, h3, _⟩ := build_some hB
  have hcon := consistent (operatorList I) (symData I) hc
  obtain ⟨sym', orbits', repr', e', hlen, hrel, horb, hrepr⟩ := C19_symmetrization hcon
  have e2 : (some (B.sym, orbits, repr) : Option _) = some (sym', orbits', repr') := by
    rw [← h1, ← e']; rfl
  simp only [Option.some.injEq, Prod.mk.injEq] at e2
  obtain ⟨rfl, rfl, rfl⟩ := e2
  set n := cols.length with hn
  set mm := momentMatrix (notcomm I) (orthomat I) (allCommute I) cols with hmm
  have hcelllt : ∀ i j, i < n → j < n → i * n + j < n * n := by
    intro i j hi hj
    calc i * n + j < i * n + n := by omega
      _ = (i + 1) * n := by rw [Nat.add_mul, Nat.one_mul]
      _ ≤ n * n := Nat.mul_le_mul_right _ hi
  have hdm : ∀ i j, j < n → (i * n + j) / n = i ∧ (i * n + j) % n = j := by
    intro i j hj
    constructor
    · rw [Nat.mul_comm, Nat.mul_add_div (by omega), Nat.div_eq_of_lt hj, Nat.add_zero]
    · rw [Nat.mul_comm, Nat.mul_add_mod, Nat.mod_eq_of_lt hj]
  have hrav : ∀ i j, i < n → j < n → (ravel n mm.mat)[i * n + j]? = some (mm.mat i j) := by
    intro i j hi hj
    rw [ravel_get (hcelllt i j hi hj), (hdm i j hj).1, (hdm i j hj).2]
  obtain ⟨k, hk1, hk2⟩ := horb _ _ (hrav i j hi hj)
  obtain ⟨k', hk1', hk2'⟩ := horb _ _ (hrav j i hj hi)
  have : mm.mat i j = mm.mat j i := C18_symmetric _ _ _ _ i j
  rw [this, hk2'] at hk2
  rw [hk1, hk1', hk2]

theorem lin_realRow {α : Type} [DecidableEq α] (d : Dict α Rat) (v : α → ℝ) : SdpSolver.lin (realRow d) v = (d.map fun t => ((t.2 : Rat) : ℝ) * v t.1).sum := by
  unfold SdpSolver.lin realRow
  rw [List.map_map]
  rfl

/-- The hypotheses of soundness: the generating set consists of words of operators, the inflation has at most 254 copies of sources in total (label arithmetic in 8 bits), the
program has been built, and no normalisation equality mentions a moment twice. -/
structure Setup (I : Input) (cols : List (List Nat)) (ch : Choice) (name : Atom → String) (B : Built) : Prop where
  columns : ColsOk (nOps I) (notcomm I) (orthomat I) (allCommute I) cols
  copies : copiesOf I.scenario ≤ 254
  computed : ch.Computed I
  built : build I cols ch name = some B
  equalities : EqualitiesProper I cols B

/-- Everything recorded after a history of truthful calls is true of the model. -/
theorem history_holds {cols : List (List Nat)} {ch : Choice} {name : Atom → String} {B : Built} (hV : Setup I cols ch name B)
    (hherm : ∀ m ∈ B.env.hermitian, 0 ≤ M.value m) (solver : SdpState.Args → SdpState.SolverOut) (h : List (SdpState.Call Mon))
    (hc : ∀ c ∈ h, CallTrue B.env M.moment c) : Holds M.val (SdpState.run B.env solver h) := by
  obtain ⟨orbits, repr, c, eqs, h1, h2, h3, _, _, _, henv⟩ := build_some hV.built
  refine run_holds B.env (by rw [henv]) (by rw [henv]) solver M.val (by rw [henv]; exact fun a => dagger_value M hV.computed a) (val_nil M)
    (by rw [henv]; exact fun a ha => val_zero M ha) ?_ hherm h hc
  intro z hz
  rw [henv] at hz
  dsimp only at hz
  split at hz
  · have := Option.some.inj hz
    subst this
    exact ⟨[0], rfl, val_zero M (by simp [isZero])⟩
  · simp at hz

/-- The value of a bound. -/
theorem lowerRow_value (t : Mon × Rat) (h0 : isClose0 t.2 = true → t.2 = 0) :
    ((SdpState.lowerRow t).map fun t => ((t.2 : Rat) : ℝ) * values M t.1).sum = M.value t.1 - t.2 := by
  unfold SdpState.lowerRow
  by_cases hc : isClose0 t.2 = true
  · rw [if_pos hc, h0 hc]
    simp [values]
  · rw [if_neg hc]
    simp [values]
    ring

theorem upperRow_value (t : Mon × Rat) (h0 : isClose0 t.2 = true → t.2 = 0) :
    ((SdpState.upperRow t).map fun t => ((t.2 : Rat) : ℝ) * values M t.1).sum = t.2 - M.value t.1 := by
  unfold SdpState.upperRow
  by_cases hc : isClose0 t.2 = true
  · rw [if_pos hc, h0 hc]
    simp [values]
  · rw [if_neg hc]
    simp [values]
    ring

/-- The values of the model solve the program when everything recorded is true of the model. -/
theorem solves_of_holds [StarModule ℝ R] {cols : List (List Nat)} {ch : Choice} {name : Atom → String} {B : Built} (hV : Setup I cols ch name B)
    (solver : SdpState.Args → SdpState.SolverOut) (h : List (SdpState.Call Mon)) (hH : Holds M.val (SdpState.run B.env solver h))
    {a : SdpState.Args} (ha : SdpState.solverArgs B.env (SdpState.run B.env solver h) = some a) :
    (solverInput cols.length B a).Solves false (values M) 0 := by
  have hg := SdpState.run_good B.env solver h
  unfold SdpState.solverArgs at ha
  split at ha
  swap
  · simp at ha
  have ha := Option.some.inj ha
  subst ha
  refine ⟨?_, ?_, ?_, ?_, ?_, by simp⟩
  · intro t ht
    obtain ⟨u, hu, rfl⟩ := List.mem_map.1 ht
    rcases List.mem_append.1 hu with hu | hu
    · obtain ⟨w, hw, rfl⟩ := List.mem_map.1 hu
      exact (hH.values.known w.1 w.2 ((State.get_of_mem _ hg.known w.1 w.2).1 hw)).1
    · simp only [List.mem_cons, List.not_mem_nil, or_false] at hu
      subst hu
      simp [values]
  · intro t ht
    obtain ⟨w, hw, rfl⟩ := List.mem_map.1 ht
    exact hH.values.semi w.1 w.2.1 w.2.2 ((State.get_of_mem _ hg.semi w.1 w.2).1 hw)
  · intro d hd
    obtain ⟨r, hr, rfl⟩ := List.mem_map.1 hd
    rw [lin_realRow]
    rcases List.mem_append.1 hr with hr | hr
    · obtain ⟨w, hw, rfl⟩ := List.mem_map.1 hr
      have := hH.lower w.1 w.2 ((State.get_of_mem _ hg.lower w.1 w.2).1 hw)
      rw [lowerRow_value M w this.2]
      exact sub_nonneg.2 this.1
    · obtain ⟨w, hw, rfl⟩ := List.mem_map.1 hr
      have := hH.upper w.1 w.2 ((State.get_of_mem _ hg.upper w.1 w.2).1 hw)
      rw [upperRow_value M w this.2]
      exact sub_nonneg.2 this.1
  · intro d hd
    obtain ⟨r, hr, rfl⟩ := List.mem_map.1 hd
    obtain ⟨w, hw, rfl⟩ := List.mem_map.1 hr
    rw [lin_realRow, ← (equalities_hold M hV.columns hV.copies hV.computed hV.built hV.equalities w hw).2]
    unfold SdpState.rowOf
    rw [List.map_map]
    rfl
  · have := cell_psd M cols
    convert this using 3 with i j
    rw [momentMatrix_eq M hV.columns hV.copies hV.computed hV.built]
    split <;> simp

/-- **The values of the model solve the program.** -/
theorem solves [StarModule ℝ R] {cols : List (List Nat)} {ch : Choice} {name : Atom → String} {B : Built} (hV : Setup I cols ch name B)
    (hherm : ∀ m ∈ B.env.hermitian, 0 ≤ M.value m) (solver : SdpState.Args → SdpState.SolverOut) (h : List (SdpState.Call Mon))
    (hc : ∀ c ∈ h, CallTrue B.env M.moment c) {a : SdpState.Args} (ha : SdpState.solverArgs B.env (SdpState.run B.env solver h) = some a) :
    (solverInput cols.length B a).Solves false (values M) 0 :=
  solves_of_holds M hV solver h (history_holds M hV hherm solver h hc) ha

/-- A semi-known moment is proportional to a moment which is neither known nor semi-known. -/
def Separated (a : SdpState.Args) : Prop := ∀ t ∈ a.semi, some t.2.2 ∉ a.known.keys ∧ t.2.2 ∉ a.semi.keys

theorem keys_some {β γ : Type} (d : Dict Mon β) (f : β → γ) : Dict.keys (d.map fun t => (some t.1, f t.2)) = (Dict.keys d).map some := by
  unfold State.Dict.keys
  rw [List.map_map, List.map_map]
  rfl

theorem keys_realRow {α : Type} (d : Dict α Rat) : Dict.keys (realRow d) = Dict.keys d := by
  unfold State.Dict.keys realRow
  rw [List.map_map]
  rfl

theorem nodup_some {l : List Mon} (h : l.Nodup) : (l.map some).Nodup := h.map (Option.some_injective _)

theorem nodup_some_none {l : List Mon} (h : l.Nodup) : (l.map some ++ [none]).Nodup := by
  rw [List.nodup_append]
  refine ⟨nodup_some h, by simp, ?_⟩
  intro x hx y hy
  obtain ⟨z, _, rfl⟩ := List.mem_map.1 hx
  simp only [List.mem_cons, List.not_mem_nil, or_false] at hy
  subst hy
  simp

/-- The arguments of the solver are well formed. -/
theorem input_ok {cols : List (List Nat)} {ch : Choice} {name : Atom → String} {B : Built} (hV : Setup I cols ch name B)
    (heq : ∀ d ∈ B.env.minEq, d.keys.Nodup)
    (solver : SdpState.Args → SdpState.SolverOut) (h : List (SdpState.Call Mon)) (hok : SdpState.Ok B.env solver h)
    {a : SdpState.Args} (ha : SdpState.solverArgs B.env (SdpState.run B.env solver h) = some a) (hsep : Separated a) :
    (solverInput cols.length B a).Ok := by
  have hg := SdpState.run_good B.env solver h
  have ho := run_objNodup B.env solver h
  have hdis := SdpState.C27_sdp_disjoint B.env solver h hok
  obtain ⟨orbits, repr, c, eqs, h1, h2, h3, hmnd, _, _, henv⟩ := build_some hV.built
  unfold SdpState.solverArgs at ha
  split at ha
  swap
  · simp at ha
  have ha := Option.some.inj ha
  subst ha
  have hmk : (masks cols.length B).keys = (B.index.map Prod.snd).map some ++ [none] := by
    unfold masks State.Dict.keys
    rw [List.map_append, List.map_map, List.map_map]
    rfl
  have hkk : Dict.keys (solverInput cols.length B ⟨(SdpState.run B.env solver h).processed, ((SdpState.run B.env solver h).known.map fun t => (some t.1, t.2)) ++ [(none, 1)],
      (SdpState.run B.env solver h).semi, B.env.minEq.map SdpState.rowOf, (SdpState.run B.env solver h).lower.map SdpState.lowerRow ++ (SdpState.run B.env solver h).upper.map SdpState.upperRow⟩).known
      = (SdpState.run B.env solver h).known.keys.map some ++ [none] := by
    show Dict.keys (realRow _) = _
    rw [keys_realRow]
    unfold State.Dict.keys
    rw [List.map_append, List.map_map, List.map_map]
    rfl
  have hks : ∀ m : Mon, some m ∈ (SdpState.run B.env solver h).known.keys.map some ++ [none] ↔ m ∈ (SdpState.run B.env solver h).known.keys := by
    intro m
    simp
  have hsk : Dict.keys ((SdpState.run B.env solver h).semi.map fun t => ((some t.1 : Option Mon), ((t.2.1 : Rat) : ℝ), (some t.2.2 : Option Mon))) = (SdpState.run B.env solver h).semi.keys.map some := by
    unfold State.Dict.keys
    rw [List.map_map, List.map_map]
    rfl
  refine ⟨?_, ?_, ?_, ?_, ?_, ?_, ?_, ?_, ?_, ?_⟩
  · rw [show (solverInput cols.length B _).masks = masks cols.length B from rfl, hmk]
    exact nodup_some_none hmnd
  · show (Dict.keys ((SdpState.run B.env solver h).processed.map _)).Nodup
    rw [keys_some]
    exact nodup_some ho.processed
  · rw [hkk]
    exact nodup_some_none hg.known
  · show (Dict.keys ((SdpState.run B.env solver h).semi.map _)).Nodup
    rw [hsk]
    exact nodup_some hg.semi
  · intro d hd
    obtain ⟨r, hr, rfl⟩ := List.mem_map.1 hd
    rw [keys_realRow]
    rcases List.mem_append.1 hr with hr | hr
    · obtain ⟨w, hw, rfl⟩ := List.mem_map.1 hr
      unfold SdpState.lowerRow
      split <;> simp [State.Dict.keys]
    · obtain ⟨w, hw, rfl⟩ := List.mem_map.1 hr
      unfold SdpState.upperRow
      split <;> simp [State.Dict.keys]
  · intro d hd
    obtain ⟨r, hr, rfl⟩ := List.mem_map.1 hd
    obtain ⟨w, hw, rfl⟩ := List.mem_map.1 hr
    rw [keys_realRow]
    unfold SdpState.rowOf
    rw [show Dict.keys (w.map fun (t : Mon × Rat) => ((some t.1 : Option Mon), t.2)) = (Dict.keys w).map some from keys_some w id]
    exact nodup_some (heq w hw)
  · intro t ht i j
    rcases List.mem_append.1 ht with ht | ht
    · obtain ⟨w, hw, rfl⟩ := List.mem_map.1 ht
      dsimp only
      rw [sym_symm hV.columns hV.built i.2 j.2]
    · simp only [List.mem_cons, List.not_mem_nil, or_false] at ht
      subst ht
      rfl
  · intro s hs
    obtain ⟨w, hw, rfl⟩ := List.mem_map.1 hs
    rw [hkk, hks]
    intro hk
    rcases hdis w.1 with hd | hd
    · exact (State.get_none _ _).1 hd hk
    · have := (State.get_of_mem _ hg.semi w.1 w.2).1 hw
      rw [hd] at this
      simp at this
  · intro s hs
    obtain ⟨w, hw, rfl⟩ := List.mem_map.1 hs
    rw [show Dict.keys (solverInput cols.length B _).known = Dict.keys (realRow _) from rfl, keys_realRow]
    exact (hsep w hw).1
  · intro s hs
    obtain ⟨w, hw, rfl⟩ := List.mem_map.1 hs
    show some w.2.2 ∉ Dict.keys ((SdpState.run B.env solver h).semi.map _)
    rw [hsk]
    intro hm
    obtain ⟨x, hx, e⟩ := List.mem_map.1 hm
    have := Option.some.inj e
    subst this
    exact (hsep w hw).2 hx

/-- Without linearised constraints there are no semi-known moments. -/
theorem separated_of_noLpi {B : Built} (hE : B.env.supports = false) (solver : SdpState.Args → SdpState.SolverOut) (h : List (SdpState.Call Mon)) (hl : NoLpi h)
    {a : SdpState.Args} (ha : SdpState.solverArgs B.env (SdpState.run B.env solver h) = some a) : Separated a := by
  have := semi_nil B.env hE solver h hl
  unfold SdpState.solverArgs at ha
  split at ha
  swap
  · simp at ha
  have ha := Option.some.inj ha
  subst ha
  intro t ht
  have hg := (State.get_of_mem _ (SdpState.run_good B.env solver h).semi t.1 t.2).1 ht
  rw [this] at hg
  simp at hg

end Verif.SdpEnd
