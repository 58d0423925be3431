import Verif.SdpSearch.Model
import Verif.Optimize.Bisect
import Verif.Optimize.Dual
/-
The two searches with a program whose answers depend on earlier calls.
-/
namespace Verif.SdpSearch
open Verif.Common Verif.Moment Verif.Optimize
open Verif.State (Dict Mon)
open Verif.Search (Expr makeNumerical Options bisectM bisectLoopM symbolNames symbolsOf)
open Verif.SdpState

variable {K : Type} {γ σ : Type}

/-- The value returned by `max_within_feasible(method="bisection")`, with or without the certificate; `none`: it raised. -/
def found (r : Outcome Rat γ × St) : Option Rat := r.1.crit

/-- The loop, when the function is positive at the left end and a point at the right end is excluded. -/
theorem bisectLoopM_spec (f : Rat → σ → Option Rat × σ) (P : σ → Prop) (Excl : Rat → Prop) (hf : ∀ v st r st', P st → f v st = (some r, st') → P st' ∧ (r ≤ 0 → Excl v))
    (xtol rtol : Rat) (k : Nat) (xa dm : Rat) (st : σ) (hd : 0 < dm) (hP : P st) (hE : Excl (xa + dm)) {x : Rat} {st' : σ} (h : bisectLoopM f xtol rtol true k xa dm st = (some x, st')) :
    xa ≤ x ∧ x ≤ xa + dm ∧ P st' ∧ ∃ u, (u = x ∨ x < u ∧ u - x < xtol + rtol * |x|) ∧ u ≤ xa + dm ∧ Excl u := by
  induction k generalizing xa dm st with
  | zero => cases h
  | succ k ih =>
    unfold bisectLoopM at h
    dsimp only at h
    rcases hm : f (xa + dm / 2) st with ⟨_ | r, st1⟩
    · rw [hm] at h
      cases h
    · rw [hm] at h
      dsimp only at h
      obtain ⟨p1, p2⟩ := hf _ _ _ _ hP hm
      have hd2 : 0 < dm / 2 := by linarith
      split at h
      · rename_i hc
        simp only [Prod.mk.injEq, Option.some.injEq] at h
        obtain ⟨rfl, rfl⟩ := h
        refine ⟨by linarith, by linarith, p1, ?_⟩
        by_cases hr : r ≤ 0
        · exact ⟨_, .inl rfl, by linarith, p2 hr⟩
        · refine ⟨xa + dm, .inr ⟨by linarith, ?_⟩, le_refl _, hE⟩
          rcases hc with hc | hc
          · exact absurd (le_of_eq hc) hr
          · rw [abs_of_pos hd2] at hc
            linarith
      · by_cases hr : 0 < r
        · rw [if_pos (by simp [hr])] at h
          obtain ⟨g1, g2, g3, u, g4, g5, g6⟩ := ih _ _ _ hd2 p1 (by rw [show xa + dm / 2 + dm / 2 = xa + dm by ring]; exact hE) h
          exact ⟨by linarith, by linarith, g3, u, g4, by linarith, g6⟩
        · rw [if_neg (by simp [hr])] at h
          obtain ⟨g1, g2, g3, u, g4, g5, g6⟩ := ih _ _ _ hd2 p1 (p2 (not_lt.1 hr)) h
          exact ⟨by linarith, by linarith, g3, u, g4, by linarith, g6⟩

section bisect
variable (E : Env K) (solver : Args → SolverOut) (cert : Args → Option (List γ)) (sym : List (K × Expr)) (o : Options)

/-- What is assumed of the program: it stays in the states `P`, and a value of at most `-precision/2048` excludes the parameter. -/
def Excludes (P : St → Prop) (Excl : Rat → Prop) : Prop :=
  ∀ v s x c s', P s → evaluation E solver cert sym o v s = (some (x, c), s') → P s' ∧ (x + o.precision / 2048 ≤ 0 → Excl v)

structure Inv (P : St → Prop) (Excl : Rat → Prop) (st : SState γ) : Prop where
  program : P st.program
  cache : ∀ t ∈ st.cache, t.2 ≤ 0 → Excl t.1

variable {E solver cert sym o}

theorem closure_spec {P : St → Prop} {Excl : Rat → Prop} (hx : Excludes E solver cert sym o P Excl) {v : Rat} {st : SState γ} (hi : Inv P Excl st) {r : Rat} {st' : SState γ}
    (h : closure E solver cert sym o v st = (some r, st')) : Inv P Excl st' ∧ (r ≤ 0 → Excl v) := by
  unfold closure at h
  rcases hf : st.cache.find? (fun t => decide (t.1 = v)) with _ | t
  · rw [hf] at h
    dsimp only at h
    rcases he : evaluation E solver cert sym o v st.program with ⟨_ | ⟨x, c⟩, s⟩
    · rw [he] at h
      cases h
    · rw [he] at h
      simp only [Prod.mk.injEq, Option.some.injEq] at h
      obtain ⟨rfl, rfl⟩ := h
      obtain ⟨p1, p2⟩ := hx _ _ _ _ _ hi.program he
      refine ⟨⟨p1, ?_⟩, p2⟩
      intro t ht
      rcases List.mem_cons.1 (List.mem_of_mem_take ht) with rfl | ht
      · exact p2
      · exact hi.cache t ht
  · rw [hf] at h
    simp only [Prod.mk.injEq, Option.some.injEq] at h
    obtain ⟨rfl, rfl⟩ := h
    have hv : t.1 = v := by simpa using List.find?_some hf
    have hm := List.mem_of_find?_eq_some hf
    refine ⟨⟨hi.program, ?_⟩, fun hr => hv ▸ hi.cache t hm hr⟩
    intro u hu
    rcases List.mem_cons.1 hu with rfl | hu
    · exact hi.cache _ hm
    · exact hi.cache u (List.mem_filter.1 hu).1

/-- The cache after a miss. -/
theorem closure_miss {v : Rat} {st : SState γ} (hn : ∀ t ∈ st.cache, t.1 ≠ v) {r : Rat} {st' : SState γ} (h : closure E solver cert sym o v st = (some r, st')) : st'.cache = ((v, r) :: st.cache).take 2 := by
  unfold closure at h
  have hf : st.cache.find? (fun t => decide (t.1 = v)) = none := by
    rw [List.find?_eq_none]
    intro t ht
    simpa using hn t ht
  rw [hf] at h
  dsimp only at h
  rcases he : evaluation E solver cert sym o v st.program with ⟨_ | ⟨x, c⟩, s⟩
  · rw [he] at h
    cases h
  · rw [he] at h
    simp only [Prod.mk.injEq, Option.some.injEq] at h
    obtain ⟨rfl, rfl⟩ := h
    rfl

/-- If the search returns `x`, at or just above `x` there is an excluded parameter. -/
theorem searchBisect_spec {P : St → Prop} {Excl : Rat → Prop} (hx : Excludes E solver cert sym o P Excl) (hp : 0 < o.precision) (hb : o.b0 < o.b1) {s : St} (hs : P s) {x : Rat}
    (h : found (searchBisect E solver cert sym o s) = some x) :
    o.b0 ≤ x ∧ x ≤ o.b1 ∧ ∃ u, (u = x ∨ x < u ∧ u - x < o.xtol + o.rtol * |x|) ∧ u ≤ o.b1 ∧ Excl u := by
  unfold searchBisect at h
  rcases h1 : closure E solver cert sym o o.b1 ⟨[], [], s⟩ with ⟨_ | r1, st1⟩
  · rw [h1] at h; cases h
  rw [h1] at h
  dsimp only at h
  split at h
  · cases h
  rename_i hr1
  have hr1 : r1 + o.precision / 2048 < 0 := not_not.1 hr1
  obtain ⟨i1, e1⟩ := closure_spec hx (P := P) (Excl := Excl) ⟨hs, by simp⟩ h1
  have hpos : 0 < o.precision / 2048 := by positivity
  have c1 : st1.cache = [(o.b1, r1)] := by
    have := closure_miss (by simp) h1
    simpa using this
  rcases h0 : closure E solver cert sym o o.b0 st1 with ⟨_ | r0, st0⟩
  · rw [h0] at h; cases h
  rw [h0] at h
  dsimp only at h
  split at h
  · cases h
  obtain ⟨i0, e0⟩ := closure_spec hx i1 h0
  have c0 : st0.cache = [(o.b0, r0), (o.b1, r1)] := by
    have := closure_miss (by rw [c1]; simp; exact ne_of_gt hb) h0
    rw [this, c1]
    rfl
  have key : ∀ (y : Rat) (st : SState γ), bisectM (closure E solver cert sym o) o.b0 o.b1 o.xtol o.rtol o.maxiter st0 = (some y, st) →
      o.b0 ≤ y ∧ y ≤ o.b1 ∧ ∃ u, (u = y ∨ y < u ∧ u - y < o.xtol + o.rtol * |y|) ∧ u ≤ o.b1 ∧ Excl u := by
    intro y st hm
    unfold bisectM at hm
    have a1 : closure E solver cert sym o o.b0 st0 = (some r0, { st0 with cache := [(o.b0, r0), (o.b1, r1)] }) := by
      unfold closure
      rw [c0]
      simp [ne_of_gt hb]
    have a2 : closure E solver cert sym o o.b1 { st0 with cache := [(o.b0, r0), (o.b1, r1)] } = (some r1, { st0 with cache := [(o.b1, r1), (o.b0, r0)] }) := by
      unfold closure
      simp [ne_of_lt hb]
    rw [a1] at hm
    dsimp only at hm
    rw [a2] at hm
    dsimp only at hm
    split at hm
    · rename_i hz
      simp only [Prod.mk.injEq, Option.some.injEq] at hm
      obtain ⟨rfl, -⟩ := hm
      exact ⟨le_refl _, hb.le, _, .inl rfl, hb.le, e0 (le_of_eq hz)⟩
    · rw [if_neg (by linarith)] at hm
      split at hm
      · cases hm
      · rename_i hne hsg
        have hr0 : 0 < r0 := by
          by_contra hc
          apply hsg
          have : ¬ 0 < r1 := by linarith
          simp [hc, this]
        have hi : Inv P Excl ({ st0 with cache := [(o.b1, r1), (o.b0, r0)] } : SState γ) := by
          refine ⟨i0.program, ?_⟩
          intro t ht
          exact i0.cache t (by rw [c0]; simp at ht ⊢; tauto)
        rw [decide_eq_true hr0] at hm
        obtain ⟨g1, g2, -, u, g4, g5, g6⟩ := bisectLoopM_spec _ (Inv P Excl) Excl (fun v st r st' hi h => closure_spec hx hi h) _ _ _ _ _ _ (by linarith : 0 < o.b1 - o.b0) hi
          (by rw [show o.b0 + (o.b1 - o.b0) = o.b1 by ring]; exact e1 (by linarith)) hm
        rw [show o.b0 + (o.b1 - o.b0) = o.b1 by ring] at g2 g5
        exact ⟨g1, g2, u, g4, g5, g6⟩
  rcases hm : bisectM (closure E solver cert sym o) o.b0 o.b1 o.xtol o.rtol o.maxiter st0 with ⟨_ | y, st⟩
  · rw [hm] at h; cases h
  rw [hm] at h
  dsimp only at h
  have hy : y = x := by
    split at h
    · split at h
      · exact Option.some.inj h
      · cases h
    · exact Option.some.inj h
  subst hy
  exact key _ _ hm

theorem maxBisect_spec {P : St → Prop} {Excl : Rat → Prop} (hx : Excludes E solver cert sym o P Excl) (hp : 0 < o.precision) (hb : o.b0 < o.b1) {s : St} (hs : P s) {x : Rat}
    (h : found (maxBisect E solver cert sym o s) = some x) :
    o.b0 ≤ x ∧ x ≤ o.b1 ∧ ∃ u, (u = x ∨ x < u ∧ u - x < o.xtol + o.rtol * |x|) ∧ u ≤ o.b1 ∧ Excl u := by
  unfold maxBisect at h
  split at h
  · exact searchBisect_spec hx hp hb hs h
  · cases h

end bisect

section dual
variable {E : Env K} {solver : Args → SolverOut} {cert : Args → Option (List (String × Rat))} {nameOf : K → String} {sym : List (K × Expr)} {minimize : (Rat → Rat) → Rat} {o : Options}

/-- What is assumed of the program: it stays in the states `P`, and the certificates satisfy `C`. -/
def Certifies (E : Env K) (solver : Args → SolverOut) (cert : Args → Option (List (String × Rat))) (nameOf : K → String) (sym : List (K × Expr)) (o : Options) (P : St → Prop) (C : (Rat → Rat) → Prop) : Prop :=
  ∀ v s g, P s → (solvedAt E solver sym o.lpi o.only v s).2 = none → (certificateOf E cert (solvedAt E solver sym o.lpi o.only v s).1).bind (certFunction (symbolNames nameOf sym)) = some g →
    P (solvedAt E solver sym o.lpi o.only v s).1 ∧ C g

theorem searchLoop_spec {P : St → Prop} {C : (Rat → Rat) → Prop} (hx : Certifies E solver cert nameOf sym o P C) (fuel : Nat) (newUb : Rat) (oldUb : Option Rat) (certs : List (Rat × Rat)) (s : St)
    (hs : P s) {newUb' : Rat} {oldUb' : Option Rat} {certs' : List (Rat × Rat)} {s' : St}
    (h : searchLoop E solver cert nameOf sym minimize o fuel newUb oldUb certs s = some (some (newUb', oldUb', certs'), s')) :
    ∃ l, certs' = certs ++ l ∧ (∀ t ∈ l, ∃ g, C g ∧ t.2 = minimize g) ∧ (l = [] → newUb' = newUb) ∧ (l ≠ [] → ∃ t ∈ l, t.2 = newUb') := by
  induction fuel generalizing newUb oldUb certs s with
  | zero => cases h
  | succ k ih =>
    unfold searchLoop at h
    split at h
    · dsimp only at h
      split at h
      · rename_i g e1 e2
        obtain ⟨p1, p2⟩ := hx _ _ _ hs e1 e2
        obtain ⟨l, q1, q2, q3, q4⟩ := ih _ _ _ _ p1 h
        refine ⟨(newUb + o.precision, minimize g) :: l, by rw [q1]; simp, ?_, by simp, ?_⟩
        · intro t ht
          rcases List.mem_cons.1 ht with rfl | ht
          · exact ⟨g, p2, rfl⟩
          · exact q2 t ht
        · intro _
          by_cases hl : l = []
          · exact ⟨_, List.mem_cons_self .., (q3 hl).symm⟩
          · obtain ⟨t, ht, e⟩ := q4 hl
            exact ⟨t, List.mem_cons_of_mem _ ht, e⟩
      · cases h
    · simp only [Option.some.injEq, Prod.mk.injEq] at h
      obtain ⟨⟨rfl, rfl, rfl⟩, rfl⟩ := h
      exact ⟨[], by simp, by simp, fun _ => rfl, by simp⟩

/-- Every bound, and the value returned, is at least the minimiser of a certificate. -/
theorem maxDual_spec {P : St → Prop} {C : (Rat → Rat) → Prop} (hx : Certifies E solver cert nameOf sym o P C) {fuel : Nat} {s : St} (hs : P s) {x : Rat} {bounds : List (Rat × Rat)} {s' : St}
    (h : maxDual E solver cert nameOf sym minimize o fuel s = some (some (x, bounds), s')) : (∀ t ∈ bounds, ∃ g, C g ∧ t.2 = minimize g) ∧ ∃ t ∈ bounds, t.2 ≤ x := by
  unfold maxDual at h
  split at h
  swap
  · cases h
  unfold searchDual at h
  rcases hl : searchLoop E solver cert nameOf sym minimize o fuel (o.b1 - o.precision) none [] s with _ | ⟨_ | ⟨newUb, oldUb, certs⟩, s1⟩
  · rw [hl] at h; cases h
  · rw [hl] at h; cases h
  rw [hl] at h
  dsimp only at h
  split at h
  swap
  · cases h
  rename_i hlen
  simp only [Option.some.injEq, Prod.mk.injEq] at h
  obtain ⟨⟨rfl, rfl⟩, -⟩ := h
  obtain ⟨l, q1, q2, -, q4⟩ := searchLoop_spec hx _ _ _ _ _ hs hl
  rw [List.nil_append] at q1
  subst q1
  refine ⟨q2, ?_⟩
  obtain ⟨t, ht, e⟩ := q4 (by rintro rfl; simp at hlen)
  refine ⟨t, ht, ?_⟩
  rw [e]
  split
  · exact le_refl _
  · split <;> linarith

end dual

end Verif.SdpSearch
