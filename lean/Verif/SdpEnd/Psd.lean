import Verif.SdpEnd.Matrix
import Verif.SdpSolver.Spec
/-!
The moment matrix with the true values is positive semidefinite, and the normalisation equalities hold.
-/
namespace Verif.SdpEnd
open Verif.Common Verif.Canon Verif.Canon.Spec Verif.Scenario Verif.Components Verif.Moment Verif.MomentMatrix Verif.SdpRepr Verif.SymMM Verif.Normalization
open Verif.State (Dict Mon)
open Verif.EndToEnd (Input)

variable {I : Input} {R : Type} [Ring R] [StarRing R] [Algebra ℝ R] (M : InflatedModel I R)

/-- The numbers of the moments, and of the constant term. -/
noncomputable def values : Option Mon → ℝ
  | some m => M.value m
  | none => 1

theorem sum_select {β : Type} (d : Dict Nat β) (hd : d.keys.Nodup) (f : β → ℝ) (k : Option Nat) :
    (d.map fun t => (if k = some t.1 then (1 : ℝ) else 0) * f t.2).sum = ((k.bind fun k => d.get k).map f).getD 0 := by
  induction d with
  | nil => rcases k with _ | k <;> simp
  | cons t d ih =>
    obtain ⟨a, b⟩ := t
    have hd' : a ∉ State.Dict.keys d ∧ (State.Dict.keys d).Nodup := by
      have : (a :: State.Dict.keys d).Nodup := hd
      exact List.nodup_cons.1 this
    rw [List.map_cons, List.sum_cons, ih hd'.2]
    rcases k with _ | k
    · simp
    · rw [Option.bind_some, Option.bind_some, State.get_cons]
      by_cases e : a = k
      · subst e
        rw [(State.get_none d a).2 hd'.1]
        simp
      · have : ¬ k = a := fun h => e h.symm
        simp [e, this]

/-- The moment matrix handed to the solver. -/
theorem momentMatrix_eq {cols : List (List Nat)} (hc : ColsOk (nOps I) (notcomm I) (orthomat I) (allCommute I) cols) (hcap : copiesOf I.scenario ≤ 254)
    {ch : Choice} (hch : ch.Computed I) {name : Atom → String} {B : Built} (hB : build I cols ch name = some B) (a : SdpState.Args) (i j : Fin cols.length) :
    (solverInput cols.length B a).momentMatrix (values M) i j = cellValue M cols i j := by
  obtain ⟨_, h2⟩ := cell_sound M hc hcap hch hB
  obtain ⟨k, hk, e⟩ := h2 i j i.2 j.2
  rw [← e]
  have hnd : B.index.keys.Nodup := by
    obtain ⟨_, _, c, _, _, _, h3, _⟩ := build_some hB
    rw [h3]; exact momentIndex_nodup ch name _ c
  show (((B.index.map fun (t : Nat × Mon) => ((some t.2 : Option Mon), fun (i j : Fin cols.length) => if B.sym[i.val * cols.length + j.val]? = some t.1 then (1 : ℝ) else 0)) ++ [(none, fun _ _ => 0)]).map
    fun (t : Option Mon × (Fin cols.length → Fin cols.length → ℝ)) => t.2 i j * values M t.1).sum = _
  rw [List.map_append, List.map_map, List.sum_append]
  have := sum_select B.index hnd (fun m => M.value m) (B.sym[i.val * cols.length + j.val]?)
  rw [hk] at this
  simp only [List.map_cons, List.map_nil, List.sum_cons, List.sum_nil, zero_mul, add_zero]
  rw [Option.bind_some] at this
  unfold indexValue
  rw [← this]
  congr 1
  apply List.map_congr_left
  intro t _
  simp only [Function.comp_apply, values]
  rw [hk]

/-- The real part of the state. -/
noncomputable def rePhi : R →+ ℝ where
  toFun x := (M.φ x).re
  map_zero' := by simp
  map_add' := by intro x y; simp

theorem rePhi_smul (c : ℝ) (x : R) : rePhi M (c • x) = c * rePhi M x := by
  show (M.φ (c • x)).re = c * (M.φ x).re
  rw [map_smul, Complex.real_smul, Complex.re_ofReal_mul]

theorem cellValue_symm (cols : List (List Nat)) (i j : Nat) : cellValue M cols i j = cellValue M cols j i := by
  unfold cellValue
  rw [star_op, star_op, re_reverse]

/-- The matrix of the model is positive semidefinite. -/
theorem cell_psd [StarModule ℝ R] (cols : List (List Nat)) : SdpSolver.PSD fun (i j : Fin cols.length) => cellValue M cols i j := by
  refine ⟨fun i j => cellValue_symm M cols i j, ?_⟩
  intro v
  have h := M.positive (∑ i : Fin cols.length, v i • op M.ρ (cols.getD i []))
  have e : rePhi M (star (∑ i : Fin cols.length, v i • op M.ρ (cols.getD i [])) * ∑ i : Fin cols.length, v i • op M.ρ (cols.getD i []))
      = SdpSolver.quad (fun (i j : Fin cols.length) => cellValue M cols i j) v := by
    rw [star_sum, Finset.sum_mul, map_sum]
    unfold SdpSolver.quad
    apply Finset.sum_congr rfl
    intro i _
    rw [Finset.mul_sum, map_sum]
    apply Finset.sum_congr rfl
    intro j _
    rw [star_smul, star_trivial, smul_mul_assoc, mul_smul_comm, rePhi_smul, rePhi_smul]
    show v i * (v j * cellValue M cols i j) = _
    ring
  rw [← e]
  exact h

/-- The indices of the matrix stand for the moments of the model. -/
theorem represents {cols : List (List Nat)} (hc : ColsOk (nOps I) (notcomm I) (orthomat I) (allCommute I) cols) (hcap : copiesOf I.scenario ≤ 254)
    {ch : Choice} (hch : ch.Computed I) {name : Atom → String} {B : Built} (hB : build I cols ch name = some B) :
    Represents (symRows cols.length B.sym) cols M.ρ (rePhi M) (indexValue M B) := by
  obtain ⟨hl, h2⟩ := cell_sound M hc hcap hch hB
  refine ⟨by simp [symRows], ?_⟩
  intro i j hi hj
  rw [symRows_getD _ _ hi hj]
  obtain ⟨k, hk, e⟩ := h2 i j hi hj
  have : B.sym.getD (i * cols.length + j) 0 = k := by rw [List.getD_eq_getElem?_getD, hk]; rfl
  rw [this, e]
  rfl

theorem realRow_set (val : Mon → ℝ) : ∀ (s : List Mon) (d : Dict Mon Rat), s.Nodup → (∀ m ∈ s, m ∉ d.keys) →
    ((s.foldl (fun d m => Dict.set d m (-1)) d).map fun t => ((t.2 : Rat) : ℝ) * val t.1).sum = (d.map fun t => ((t.2 : Rat) : ℝ) * val t.1).sum - (s.map val).sum := by
  have hset : ∀ (d : Dict Mon Rat) (m : Mon), m ∉ d.keys → Dict.set d m (-1) = d ++ [(m, -1)] := by
    intro d
    induction d with
    | nil => intro m _; rfl
    | cons t d ih =>
      intro m hm
      obtain ⟨a, b⟩ := t
      have hm' : m ≠ a ∧ m ∉ State.Dict.keys d := by
        have : m ∉ a :: State.Dict.keys d := hm
        simpa using this
      show (if a = m then _ else _) = _
      rw [if_neg (fun e => hm'.1 e.symm), ih m hm'.2]
      rfl
  intro s
  induction s with
  | nil => intro d _ _; simp
  | cons m s ih =>
    intro d hs hd
    rw [List.nodup_cons] at hs
    rw [List.foldl_cons, ih _ hs.2, hset d m (hd m (by simp))]
    · simp only [List.map_append, List.map_cons, List.map_nil, List.sum_append, List.sum_cons, List.sum_nil]
      push_cast
      ring
    · intro m' hm'
      rw [State.mem_set_keys]
      rintro (e | e)
      · subst e; exact hs.1 hm'
      · exact hd m' (List.mem_cons_of_mem _ hm') e

/-- No index occurs twice in a normalisation equality (see C41 for what happens otherwise; networks have no normalisation equalities). -/
def EqualitiesProper (I : Input) (cols : List (List Nat)) (B : Built) : Prop :=
  ∀ eqs, indexEqualities I cols B.sym = some eqs → ∀ e ∈ eqs, (e.1 :: e.2).Nodup

theorem equalitiesProper_of_network (h : I.isNetwork = true) (cols : List (List Nat)) (B : Built) : EqualitiesProper I cols B := by
  intro eqs he
  unfold indexEqualities at he
  rw [if_pos h] at he
  have := Option.some.inj he
  subst this
  simp

theorem mapM_mem {α β : Type} {f : α → Option β} {l : List α} {r : List β} (h : l.mapM f = some r) {b : β} (hb : b ∈ r) : ∃ a ∈ l, f a = some b := by
  induction l generalizing r with
  | nil => simp at h; subst h; simp at hb
  | cons a l ih =>
    simp only [List.mapM_cons, Option.bind_eq_bind, Option.bind_eq_some_iff, Option.pure_def, Option.some.injEq] at h
    obtain ⟨x, hx, r', hr', rfl⟩ := h
    rcases List.mem_cons.1 hb with rfl | hb
    · exact ⟨a, by simp, hx⟩
    · obtain ⟨c, hc, e⟩ := ih hr' hb
      exact ⟨c, List.mem_cons_of_mem _ hc, e⟩

/-- The normalisation equalities hold in every model. -/
theorem equalities_hold {cols : List (List Nat)} (hc : ColsOk (nOps I) (notcomm I) (orthomat I) (allCommute I) cols) (hcap : copiesOf I.scenario ≤ 254)
    {ch : Choice} (hch : ch.Computed I) {name : Atom → String} {B : Built} (hB : build I cols ch name = some B) (hpr : EqualitiesProper I cols B) :
    ∀ d ∈ B.env.minEq, d.keys.Nodup ∧ (d.map fun t => ((t.2 : Rat) : ℝ) * M.value t.1).sum = 0 := by
  obtain ⟨_, _, c, eqs, _, _, h3, hnd, he, hm, _⟩ := build_some hB
  have hrep := represents M hc hcap hch hB
  have hkeys : B.index.keys.Nodup := by rw [h3]; exact momentIndex_nodup ch name _ c
  have hinj : ∀ i j m, B.index.get i = some m → B.index.get j = some m → i = j := by
    intro i j m hi hj
    have hi' := (State.get_of_mem B.index hkeys i m).2 hi
    have hj' := (State.get_of_mem B.index hkeys j m).2 hj
    have := (List.inj_on_of_nodup_map hnd hi' hj' rfl)
    exact (Prod.mk.inj this).1
  intro d hd
  obtain ⟨e, hemem, hrow⟩ := mapM_mem hm hd
  have hprop := hpr eqs he e hemem
  have hval : indexValue M B e.1 = (e.2.map (indexValue M B)).sum := by
    unfold indexEqualities at he
    split at he
    · have := Option.some.inj he
      subst this
      simp at hemem
    · obtain ⟨es, hdisc, heq⟩ := Option.map_eq_some_iff.1 he
      subst heq
      exact C41_index_equalities_hold _ (scenarioGroups I.scenario) cols _ es hdisc e.1 e.2 hemem M.ρ M.complete (rePhi M) (indexValue M B) hrep
  unfold momentRow at hrow
  split at hrow
  · exact absurd hrow (by simp)
  obtain ⟨n, hn, hrow2⟩ := Option.bind_eq_some_iff.1 hrow
  clear hrow
  obtain ⟨s, hs, hrow⟩ := Option.map_eq_some_iff.1 hrow2
  clear hrow2
  have hf := LpSolver.mapM_forall₂ hs
  have hsval : s.map M.value = e.2.map (indexValue M B) := by
    clear hs hrow hd
    generalize e.2 = l at hf
    induction hf with
    | nil => rfl
    | @cons a b l1 l2 hab _ ih =>
      rw [List.map_cons, List.map_cons, ih]
      congr 1
      have hab' : B.index.get a = some b := hab
      unfold indexValue
      rw [hab']
      rfl
  have hnval : M.value n = indexValue M B e.1 := by
    unfold indexValue
    rw [hn]
    rfl
  have hsnd : (n :: s).Nodup := by
    have hall : List.Forall₂ (fun i m => B.index.get i = some m) (e.1 :: e.2) (n :: s) := .cons hn hf
    generalize n :: s = L2 at hall
    generalize e.1 :: e.2 = L1 at hall hprop
    induction hall with
    | nil => simp
    | @cons a b l1 l2 hab hrest ih =>
      rw [List.nodup_cons] at hprop ⊢
      refine ⟨?_, ih hprop.2⟩
      intro hb
      obtain ⟨i, hi, rfl⟩ := List.getElem_of_mem hb
      have hf := List.forall₂_iff_get.1 hrest
      have hi' : i < l1.length := by rw [hf.1]; exact hi
      have := hf.2 i hi' hi
      have e := hinj a _ _ hab this
      exact hprop.1 (e ▸ List.getElem_mem _)
  subst hrow
  have h0 := realRow_set M.value s [(n, 1)] (List.nodup_cons.1 hsnd).2 (by
    intro m hm hk
    have : m = n := by simpa [State.Dict.keys] using hk
    subst this
    exact (List.nodup_cons.1 hsnd).1 hm)
  refine ⟨?_, ?_⟩
  · have : ∀ (l : List Mon) (d : Dict Mon Rat), d.keys.Nodup → (l.foldl (fun d m => Dict.set d m (-1)) d).keys.Nodup := by
      intro l
      induction l with
      | nil => intro d h; exact h
      | cons m l ih => intro d h; exact ih _ (State.nodup_set _ _ _ h)
    exact this s _ (by simp [State.Dict.keys])
  · rw [h0, hsval]
    simp only [List.map_cons, List.map_nil, List.sum_cons, List.sum_nil, hnval, hval]
    push_cast
    ring

end Verif.SdpEnd
