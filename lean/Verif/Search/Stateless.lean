import Verif.Search.Model
import Verif.State.LpProps
/-
The searches on a program with state are the searches of `Verif.Optimize` for a program given as a function of the parameter: `set_values` forgets everything but the bounds, the objective and the
direction, and neither it nor `solve` changes these.
-/
namespace Verif.Search
open Verif.Moment Verif.State Verif.Optimize

variable {K γ : Type}

/-- Two states with the same bounds, objective and direction. -/
structure Like (s s' : LpState) : Prop where
  lower : s.lower = s'.lower
  upper : s.upper = s'.upper
  objective : s.objective = s'.objective
  maximize : s.maximize = s'.maximize

theorem Like.refl (s : LpState) : Like s s := ⟨rfl, rfl, rfl, rfl⟩
theorem Like.symm {s s' : LpState} (h : Like s s') : Like s' s := ⟨h.1.symm, h.2.symm, h.3.symm, h.4.symm⟩
theorem Like.trans {s s' s'' : LpState} (h : Like s s') (h' : Like s' s'') : Like s s'' := ⟨h.1.trans h'.1, h.2.trans h'.2, h.3.trans h'.3, h.4.trans h'.4⟩

theorem setValues_like (E : Env K) (hsup : E.supports = false) (v : List (K × Option Rat)) (lpi o : Bool) (s : LpState) : Like (setValues E v lpi o s) s := by
  unfold setValues updateValues cleanup
  dsimp only
  rw [hsup]
  split
  · exact ⟨rfl, rfl, rfl, rfl⟩
  · split <;> exact ⟨rfl, rfl, rfl, rfl⟩

theorem setValues_parts (E : Env K) (hsup : E.supports = false) (v : List (K × Option Rat)) (lpi o : Bool) (s s' : LpState) :
    (setValues E v lpi o s).known = (setValues E v lpi o s').known ∧ (setValues E v lpi o s).semi = (setValues E v lpi o s').semi ∧
      (setValues E v lpi o s).extraEq = (setValues E v lpi o s').extraEq ∧ (setValues E v lpi o s).extraIneq = (setValues E v lpi o s').extraIneq := by
  unfold setValues updateValues cleanup
  dsimp only
  rw [hsup]
  split
  · exact ⟨rfl, rfl, rfl, rfl⟩
  · split <;> exact ⟨rfl, rfl, rfl, rfl⟩

theorem solverArgs_congr (E : Env K) {s s' : LpState} (h : Like s s') (hk : s.known = s'.known) (hs : s.semi = s'.semi) (he : s.extraEq = s'.extraEq) (hi : s.extraIneq = s'.extraIneq) :
    solverArgs E s = solverArgs E s' := by
  unfold solverArgs sparseEq sparseIneq
  rw [h.lower, h.upper, h.objective, hk, hs, he, hi]

/-- Setting values prepares the same problem in any two states with the same bounds and objective. -/
theorem setValues_solverArgs (E : Env K) (hsup : E.supports = false) (v : List (K × Option Rat)) (lpi o : Bool) {s s' : LpState} (h : Like s s') :
    solverArgs E (setValues E v lpi o s) = solverArgs E (setValues E v lpi o s') := by
  obtain ⟨h1, h2, h3, h4⟩ := setValues_parts E hsup v lpi o s s'
  exact solverArgs_congr E ((setValues_like E hsup v lpi o s).trans (h.trans (setValues_like E hsup v lpi o s').symm)) h1 h2 h3 h4

theorem solve_like (E : Env K) (solver : Args → SolverOut) (s : LpState) : Like (solve E solver s) s := by
  unfold solve
  split <;> exact ⟨rfl, rfl, rfl, rfl⟩

theorem solve_solverArgs (E : Env K) (solver : Args → SolverOut) (s : LpState) : solverArgs E (solve E solver s) = solverArgs E s := by
  unfold solve
  split
  · rfl
  · rfl

theorem objectiveOf_solve (E : Env K) (solver : Args → SolverOut) {s s' : LpState} (h : solverArgs E s = solverArgs E s') (hm : s.maximize = s'.maximize)
    (hr : s.result = .notSolved) (hr' : s'.result = .notSolved) : objectiveOf (solve E solver s) = objectiveOf (solve E solver s') := by
  unfold solve
  rw [h]
  split
  · unfold objectiveOf
    rw [hr, hr']
  · unfold objectiveOf
    dsimp only
    rw [hm]

theorem setValues_result (E : Env K) (hsup : E.supports = false) (v : List (K × Option Rat)) (lpi o : Bool) (s : LpState) : (setValues E v lpi o s).result = .notSolved := by
  unfold setValues updateValues cleanup
  dsimp only
  rw [hsup]
  split
  · rfl
  · split <;> rfl

theorem solvedAt_like (E : Env K) (hsup : E.supports = false) (solver : Args → SolverOut) (sym : List (K × Expr)) (lpi only : Bool) (v : Rat) (s : LpState) :
    Like (solvedAt E solver sym lpi only v s) s := (solve_like E solver _).trans (setValues_like E hsup _ _ _ s)

theorem solvedAt_args (E : Env K) (hsup : E.supports = false) (solver : Args → SolverOut) (sym : List (K × Expr)) (lpi only : Bool) (v : Rat) {s s' : LpState} (h : Like s s') :
    solverArgs E (solvedAt E solver sym lpi only v s) = solverArgs E (solvedAt E solver sym lpi only v s') := by
  unfold solvedAt
  rw [solve_solverArgs, solve_solverArgs]
  exact setValues_solverArgs E hsup _ _ _ h

theorem solvedAt_objective (E : Env K) (hsup : E.supports = false) (solver : Args → SolverOut) (sym : List (K × Expr)) (lpi only : Bool) (v : Rat) {s s' : LpState} (h : Like s s') :
    objectiveOf (solvedAt E solver sym lpi only v s) = objectiveOf (solvedAt E solver sym lpi only v s') :=
  objectiveOf_solve E solver (setValues_solverArgs E hsup _ _ _ h) ((setValues_like E hsup _ _ _ s).maximize.trans (h.maximize.trans (setValues_like E hsup _ _ _ s').maximize.symm))
    (setValues_result E hsup _ _ _ _) (setValues_result E hsup _ _ _ _)

/-- What the program answers at `v` in the state `s`. -/
def oracle (E : Env K) (solver : Args → SolverOut) (cert : Args → Option (List γ)) (sym : List (K × Expr)) (o : Options) (s : LpState) : Oracle Rat γ where
  objective v := (objectiveOf (solvedAt E solver sym o.lpi o.only v s)).getD 0
  certificate v := (certificateOf E cert (solvedAt E solver sym o.lpi o.only v s)).getD []

/-- The state of the closure without the program. -/
def SState.erase (st : SState γ) : BState Rat γ := ⟨st.cache, st.found⟩

theorem closure_spec (E : Env K) (hsup : E.supports = false) (solver : Args → SolverOut) (cert : Args → Option (List γ)) (sym : List (K × Expr)) (o : Options) (s : LpState) {v r : Rat}
    {st st' : SState γ} (hst : Like st.program s) (h : closure E solver cert sym o v st = (some r, st')) :
    cachedF (oracle E solver cert sym o s) o.precision v st.erase = (r, st'.erase) ∧ Like st'.program s := by
  unfold closure at h
  unfold cachedF
  have e0 : st.erase.cache = st.cache := rfl
  rw [e0]
  split at h
  · rename_i t ht
    rw [ht]
    obtain ⟨h1, h2⟩ := Prod.mk.inj h
    rw [← Option.some.inj h1, ← h2]
    exact ⟨rfl, hst⟩
  · rename_i ht
    rw [ht]
    dsimp only at h
    split at h
    · rename_i x c hx hc
      obtain ⟨h1, h2⟩ := Prod.mk.inj h
      rw [← Option.some.inj h1, ← h2]
      rw [solvedAt_objective E hsup solver sym o.lpi o.only v hst] at hx
      have hc' : certificateOf E cert (solvedAt E solver sym o.lpi o.only v s) = some c := by
        rw [← hc]
        unfold certificateOf
        rw [solvedAt_args E hsup solver sym o.lpi o.only v hst]
      refine ⟨?_, (solvedAt_like E hsup solver sym o.lpi o.only v st.program).trans hst⟩
      simp only [evalF, oracle, hx, hc', Option.getD_some, SState.erase]
    · cases h

theorem loop_spec {σ τ : Type} {f : Rat → σ → Option Rat × σ} {g : Rat → τ → Rat × τ} {e : σ → τ} {P : σ → Prop}
    (hfg : ∀ v st r st', P st → f v st = (some r, st') → g v (e st) = (r, e st') ∧ P st') (xtol rtol : Rat) (s : Bool) :
    ∀ (k : Nat) (xa dm : Rat) (st st' : σ) (x : Rat), P st → bisectLoopM f xtol rtol s k xa dm st = (some x, st') →
      bisectLoop g xtol rtol s k xa dm (e st) = (some x, e st') ∧ P st'
  | 0, _, _, _, _, _, _, h => by simp [bisectLoopM] at h
  | k + 1, xa, dm, st, st', x, hP, h => by
    unfold bisectLoopM at h
    unfold bisectLoop
    dsimp only at h ⊢
    split at h
    · cases h
    · rename_i r st1 hr
      obtain ⟨h1, h2⟩ := hfg _ _ _ _ hP hr
      rw [h1]
      dsimp only
      split at h
      · rename_i hc
        rw [if_pos hc]
        obtain ⟨h3, h4⟩ := Prod.mk.inj h
        rw [← Option.some.inj h3, ← h4]
        exact ⟨rfl, h2⟩
      · rename_i hc
        rw [if_neg hc]
        exact loop_spec hfg xtol rtol s k _ _ _ _ _ h2 h

theorem bisect_spec {σ τ : Type} {f : Rat → σ → Option Rat × σ} {g : Rat → τ → Rat × τ} {e : σ → τ} {P : σ → Prop}
    (hfg : ∀ v st r st', P st → f v st = (some r, st') → g v (e st) = (r, e st') ∧ P st') (a b xtol rtol : Rat) (maxiter : Nat) (st st' : σ) (x : Rat) (hP : P st)
    (h : bisectM f a b xtol rtol maxiter st = (some x, st')) : bisect g a b xtol rtol maxiter (e st) = (some x, e st') ∧ P st' := by
  unfold bisectM at h
  unfold bisect
  dsimp only
  split at h
  · cases h
  · rename_i ra st1 hra
    obtain ⟨h1, h2⟩ := hfg _ _ _ _ hP hra
    rw [h1]
    dsimp only
    split at h
    · cases h
    · rename_i rb st2 hrb
      obtain ⟨h3, h4⟩ := hfg _ _ _ _ h2 hrb
      rw [h3]
      dsimp only
      split at h
      · rename_i hc
        rw [if_pos hc]
        obtain ⟨h5, h6⟩ := Prod.mk.inj h
        rw [← Option.some.inj h5, ← h6]
        exact ⟨rfl, h4⟩
      · rename_i hc
        rw [if_neg hc]
        split at h
        · rename_i hc
          rw [if_pos hc]
          obtain ⟨h5, h6⟩ := Prod.mk.inj h
          rw [← Option.some.inj h5, ← h6]
          exact ⟨rfl, h4⟩
        · rename_i hc
          rw [if_neg hc]
          split at h
          · cases h
          · rename_i hc
            rw [if_neg hc]
            exact loop_spec hfg _ _ _ _ _ _ _ _ _ h4 h

/-- A search by bisection that does not raise is the search for the program as a function of the parameter. -/
theorem searchBisect_spec (E : Env K) (hsup : E.supports = false) (solver : Args → SolverOut) (cert : Args → Option (List γ)) (sym : List (K × Expr)) (o : Options) (s : LpState) {out : Outcome Rat γ} {s' : LpState}
    (h : searchBisect E solver cert sym o s = (out, s')) (hr : out ≠ .raised) :
    maximizeViaBisect (oracle E solver cert sym o s) o.b0 o.b1 o.precision o.xtol o.rtol o.maxiter o.returnLast = out ∧ Like s' s := by
  have key := fun v st r st' hP h => closure_spec E hsup solver cert sym o s (v := v) (r := r) (st := st) (st' := st') hP h
  unfold searchBisect at h
  unfold maximizeViaBisect
  dsimp only
  split at h
  · exact absurd (Prod.mk.inj h).1.symm hr
  · rename_i r1 st1 h1
    obtain ⟨g1, p1⟩ := key _ _ _ _ (Like.refl s) h1
    have g1 : cachedF (oracle E solver cert sym o s) o.precision o.b1 ⟨[], []⟩ = (r1, st1.erase) := g1
    rw [g1]
    dsimp only
    split at h
    · exact absurd (Prod.mk.inj h).1.symm hr
    · rename_i hc
      rw [if_neg hc]
      split at h
      · exact absurd (Prod.mk.inj h).1.symm hr
      · rename_i r0 st0 h0
        obtain ⟨g0, p0⟩ := key _ _ _ _ p1 h0
        rw [g0]
        dsimp only
        split at h
        · exact absurd (Prod.mk.inj h).1.symm hr
        · rename_i hc
          rw [if_neg hc]
          split at h
          · exact absurd (Prod.mk.inj h).1.symm hr
          · rename_i x st hx
            obtain ⟨gx, px⟩ := bisect_spec (P := fun st : SState γ => Like st.program s) (e := SState.erase) key _ _ _ _ _ _ _ _ p0 hx
            rw [gx]
            dsimp only
            split at h
            · rename_i hl
              rw [if_pos hl]
              have e1 : st.erase.found = st.found := rfl
              rw [e1]
              split at h
              · rename_i t ht
                rw [ht]
                obtain ⟨h3, h4⟩ := Prod.mk.inj h
                rw [← h3, ← h4]
                exact ⟨rfl, px⟩
              · exact absurd (Prod.mk.inj h).1.symm hr
            · rename_i hl
              rw [if_neg hl]
              obtain ⟨h3, h4⟩ := Prod.mk.inj h
              rw [← h3, ← h4]
              exact ⟨rfl, px⟩

/-- The same for the search with certificates. -/
theorem searchLoop_spec (E : Env K) (hsup : E.supports = false) (solver : Args → SolverOut) (cert : Args → Option (List (String × Rat))) (nameOf : K → String) (sym : List (K × Expr))
    (minimize : (Rat → Rat) → Rat) (o : Options) (s : LpState) :
    ∀ (fuel : Nat) (newUb : Rat) (oldUb : Option Rat) (certs : List (Rat × Rat)) (st st' : LpState) (r : Rat × Option Rat × List (Rat × Rat)), Like st s →
      searchLoop E solver cert nameOf sym minimize o fuel newUb oldUb certs st = some (some r, st') →
      dualLoop (symbolNames nameOf sym) (oracle E solver cert sym o s).certificate minimize o.precision fuel newUb oldUb certs = some (some r) ∧ Like st' s
  | 0, _, _, _, _, _, _, _, h => by simp [searchLoop] at h
  | fuel + 1, newUb, oldUb, certs, st, st', r, hst, h => by
    unfold searchLoop at h
    unfold dualLoop
    split at h
    · rename_i hg
      rw [if_pos hg]
      dsimp only at h
      split at h
      · cases h
      · rename_i g hgc
        obtain ⟨c, hc, hcg⟩ := Option.bind_eq_some_iff.1 hgc
        have e : (oracle E solver cert sym o s).certificate (newUb + o.precision) = c := by
          have : certificateOf E cert (solvedAt E solver sym o.lpi o.only (newUb + o.precision) s) = some c := by
            rw [← hc]
            unfold certificateOf
            rw [solvedAt_args E hsup solver sym o.lpi o.only _ hst]
          simp only [oracle, this, Option.getD_some]
        rw [e, hcg]
        exact searchLoop_spec E hsup solver cert nameOf sym minimize o s fuel _ _ _ _ _ _ ((solvedAt_like E hsup solver sym o.lpi o.only _ st).trans hst) h
    · rename_i hg
      rw [if_neg hg]
      obtain ⟨h1, h2⟩ := Prod.mk.inj (Option.some.inj h)
      rw [Option.some.inj h1, ← h2]
      exact ⟨rfl, hst⟩

theorem searchDual_spec (E : Env K) (hsup : E.supports = false) (solver : Args → SolverOut) (cert : Args → Option (List (String × Rat))) (nameOf : K → String) (sym : List (K × Expr))
    (minimize : (Rat → Rat) → Rat) (o : Options) (s : LpState) {fuel : Nat} {r : Rat × List (Rat × Rat)} {s' : LpState}
    (h : searchDual E solver cert nameOf sym minimize o fuel s = some (some r, s')) :
    maximizeViaDual (symbolNames nameOf sym) (oracle E solver cert sym o s).certificate minimize o.b1 o.precision fuel = some (some r) ∧ Like s' s := by
  unfold searchDual at h
  unfold maximizeViaDual
  split at h
  · cases h
  · cases h
  · rename_i newUb oldUb certs st hl
    obtain ⟨h1, h2⟩ := searchLoop_spec E hsup solver cert nameOf sym minimize o s _ _ _ _ _ _ _ (Like.refl s) hl
    rw [h1]
    dsimp only
    split at h
    · rename_i hlen
      rw [if_pos hlen]
      obtain ⟨h3, h4⟩ := Prod.mk.inj (Option.some.inj h)
      rw [← h4, ← h3]
      exact ⟨by cases oldUb <;> rfl, h2⟩
    · cases h

end Verif.Search
