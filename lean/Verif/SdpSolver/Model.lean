import Verif.SdpSolver.Psd
import Verif.State.Dict
import Verif.Common.SortLemmas
/-
Model of `inflation/sdp/sdp_utils.py`: the preprocessing of `solveSDP_MosekFUSION`, the primal and dual problems it hands to MOSEK,
and the processing of the solution. MOSEK itself is not modelled: a solution is any point with the stated properties.
Numbers are the elements of an ordered field instead of floats.
-/
namespace Verif.SdpSolver
open Verif.State

variable {α K : Type} [DecidableEq α] [Field K] [LinearOrder K] {n : Nat}

/-- The arguments of `solveSDP_MosekFUSION` describing the problem (sdp_utils.py 16-29). `None` is the empty dictionary or list
(175-183). All mask matrices have the size `n` of the first one (`mat_dim`, 187): otherwise numpy raises when they are added. -/
structure Input (α K : Type) (n : Nat) where
  masks : Dict α (Mat n K)
  objective : Dict α K
  known : Dict α K
  semiknown : Dict α (K × α)
  ineqs : List (Dict α K)
  eqs : List (Dict α K)

/-- The options of `solveSDP_MosekFUSION` (sdp_utils.py 16-29), and the names `"lambda"`, `"lambda_"`, `"lambda__"`, … (203-205). -/
structure Flags (α : Type) where
  nonneg : Bool
  feas : Bool
  process : Bool
  lam : Nat → α

/-- `sum(coeff * value)` over a dictionary. -/
def lin (d : Dict α K) (v : α → K) : K := (d.map fun t => t.2 * v t.1).sum

/-- `k in d`. -/
def has {β : Type} (d : Dict α β) (k : α) : Bool := (Dict.get d k).isSome

/-- The set `variables` before the constraints are processed (sdp_utils.py 189-196), as a list without repetitions. The order in
which Python iterates over the set is not modelled: nothing below depends on it. -/
def baseVars (inp : Input α K n) : List α :=
  (Common.dedupB (inp.masks.keys ++ inp.objective.keys ++ inp.eqs.flatMap Dict.keys ++ inp.ineqs.flatMap Dict.keys)).filter
    fun x => !has inp.known x

/-- The name of the variable added by `feas_as_optim` (sdp_utils.py 203-205): underscores are added until the name is unused. -/
def lamName (fl : Flags α) (vars : List α) : α := fl.lam (((List.range (vars.length + 1)).find? fun k => !decide (fl.lam k ∈ vars)).getD 0)

/-- Scalar multiple of a sparse matrix, where `none` is the integer 0 (`Fi.pop(x, 0)`, sdp_utils.py 219). -/
def smulMat (c : K) : Option (Mat n K) → Option (Mat n K)
  | none => none
  | some F => some fun i j => c * F i j

/-- Sum of sparse matrices, where `none` is the integer 0 (sdp_utils.py 220). -/
def addMat : Option (Mat n K) → Option (Mat n K) → Option (Mat n K)
  | none, F => F
  | F, none => F
  | some F, some G => some fun i j => F i j + G i j

/-- Work space of the preprocessing: the local variables `variables`, `Fi`, `var_objective`, `var_inequalities`, `var_equalities`. -/
structure Work (α K : Type) (n : Nat) where
  vars : List α
  masks : Dict α (Option (Mat n K))
  objective : Dict α K
  ineqs : List (Dict α K)
  eqs : List (Dict α K)

/-- `Fi[lam] = -1 * eye(mat_dim)` (sdp_utils.py 207). -/
def minusOne : Mat n K := fun i j => if i = j then -1 else 0

/-- The state before the constraints are processed (sdp_utils.py 175-208). -/
def start (fl : Flags α) (inp : Input α K n) : Work α K n :=
  let vars := baseVars inp
  let Fi : Dict α (Option (Mat n K)) := inp.masks.map fun t => (t.1, some t.2)
  if fl.feas && !inp.masks.isEmpty then
    let lam := lamName fl vars
    ⟨vars ++ [lam], Fi.set lam (some minusOne), [(lam, 1)], inp.ineqs, inp.eqs⟩
  else ⟨vars, Fi, inp.objective, inp.ineqs, inp.eqs⟩

/-- The entry of a sparse matrix, where `none` is the integer 0. -/
def entry (F : Option (Mat n K)) (i j : Fin n) : K :=
  match F with
  | none => 0
  | some F => F i j

/-- `F0 += sum(known_vars[x] * Fi[x] for x in set(Fi).intersection(known_vars))` (sdp_utils.py 210-212). -/
def constMat (known : Dict α K) (Fi : Dict α (Option (Mat n K))) : Mat n K := fun i j =>
  ((Fi.filter fun t => has known t.1).map fun t => ((Dict.get known t.1).getD 0) * entry t.2 i j).sum

/-- `val = d.pop(x, 0); d[x2] = d.get(x2, 0) + c * val` (sdp_utils.py 222-232). -/
def elimDict (x : α) (c : K) (x2 : α) (d : Dict α K) : Dict α K :=
  (d.erase x).set x2 (((d.erase x).get x2).getD 0 + c * (d.get x).getD 0)

/-- `val = Fi.pop(x, 0); Fi[x2] = Fi.get(x2, 0) + c * val` (sdp_utils.py 219-220). -/
def elimMasks (x : α) (c : K) (x2 : α) (d : Dict α (Option (Mat n K))) : Dict α (Option (Mat n K)) :=
  (d.erase x).set x2 (addMat (((d.erase x).get x2).getD none) (smulMat c ((d.get x).getD none)))

/-- One round of the loop over the semi-known variables (sdp_utils.py 217-235). `variables.remove(x)` raises a `KeyError` when `x` is
not a variable. -/
def elimStep (fl : Flags α) (hasMasks : Bool) (w : Work α K n) (s : α × K × α) : Option (Work α K n) :=
  if s.1 ∈ w.vars then
    some
      { vars := if s.2.2 ∈ w.vars.filter (fun y => !decide (y = s.1)) then w.vars.filter (fun y => !decide (y = s.1))
          else w.vars.filter (fun y => !decide (y = s.1)) ++ [s.2.2]
        masks := if hasMasks then elimMasks s.1 s.2.1 s.2.2 w.masks else w.masks
        objective := if !w.objective.isEmpty && !fl.feas then elimDict s.1 s.2.1 s.2.2 w.objective else w.objective
        ineqs := w.ineqs.map (elimDict s.1 s.2.1 s.2.2)
        eqs := w.eqs.map (elimDict s.1 s.2.1 s.2.2) }
  else none

/-- The loop over the semi-known variables (sdp_utils.py 217-235). -/
def elimAll (fl : Flags α) (hasMasks : Bool) : Work α K n → Dict α (K × α) → Option (Work α K n)
  | w, [] => some w
  | w, s :: l => (elimStep fl hasMasks w s).bind fun w' => elimAll fl hasMasks w' l

/-- The semi-known relation as an equality, the literal `{x: 1, x2: -c}` (sdp_utils.py 240). -/
def semiRow (s : α × K × α) : Dict α K := Dict.set [(s.1, 1)] s.2.2 (-s.2.1)

/-- Without `process_constraints`, the relations become equalities (sdp_utils.py 237-241). Only the other variable is added to the set. -/
def keepStep (w : Work α K n) (s : α × K × α) : Work α K n :=
  { w with
    eqs := w.eqs ++ [semiRow s]
    vars := if s.2.2 ∈ w.vars then w.vars else w.vars ++ [s.2.2] }

/-- The problem after preprocessing. -/
structure Prep (α K : Type) (n : Nat) where
  vars : List α
  masks : Dict α (Mat n K)
  F0 : Mat n K
  objective : Dict α K
  ineqs : List (Dict α K)
  eqs : List (Dict α K)
  known : Dict α K

/-- `c0` (sdp_utils.py 243-246). -/
def Prep.c0 (P : Prep α K n) : K := ((P.objective.filter fun t => has P.known t.1).map fun t => t.2 * (Dict.get P.known t.1).getD 0).sum

/-- Whether `var2index[x]` succeeds for all the free variables of a constraint (sdp_utils.py 250, 267-270). -/
def rowsOk (vars : List α) (known : Dict α K) (rows : List (Dict α K)) : Bool :=
  rows.all fun d => d.all fun t => has known t.1 || decide (t.1 ∈ vars)

/-- The integer matrices left over make `scipy_to_mosek` and `triu_indices` raise (sdp_utils.py 154-159, 356-361, 410-411): only proper matrices may remain. -/
def properMasks : Dict α (Option (Mat n K)) → Option (Dict α (Mat n K))
  | [] => some []
  | (x, some F) :: d => (properMasks d).map fun l => (x, F) :: l
  | (_, none) :: _ => none

/-- The preprocessing (sdp_utils.py 175-286). `none` is an exception. -/
def prep (fl : Flags α) (inp : Input α K n) : Option (Prep α K n) :=
  let w0 := start fl inp
  let w := if fl.process then elimAll fl (!inp.masks.isEmpty) w0 inp.semiknown else some (inp.semiknown.foldl keepStep w0)
  w.bind fun w =>
    if rowsOk w.vars inp.known w.ineqs && rowsOk w.vars inp.known w.eqs then
      (properMasks w.masks).map fun Fi => ⟨w.vars, Fi, constMat inp.known w0.masks, w.objective, w.ineqs, w.eqs, inp.known⟩
    else none

/-- A row of `A x + b` or `C x + d` (sdp_utils.py 255-286). -/
def Prep.row (P : Prep α K n) (d : Dict α K) (x : α → K) : K :=
  ((d.filter fun t => !has P.known t.1).map fun t => t.2 * x t.1).sum +
    ((d.filter fun t => has P.known t.1).map fun t => t.2 * (Dict.get P.known t.1).getD 0).sum

/-- `F0(i,j) + sum_i xi Fi(i,j)` (sdp_utils.py 404-415), over `variables.intersection(Fi.keys())`. -/
def Prep.gamma (P : Prep α K n) (x : α → K) : Mat n K := fun i j =>
  P.F0 i j + ((P.masks.filter fun t => decide (t.1 ∈ P.vars)).map fun t => t.2 i j * x t.1).sum

/-- The primal problem handed to MOSEK (sdp_utils.py 369-420): values of the variables and a positive semidefinite matrix whose upper
triangle is `F0 + sum_i xi Fi`. -/
structure Prep.Primal (P : Prep α K n) (nonneg : Bool) (x : α → K) (G : Mat n K) : Prop where
  ineq : ∀ d ∈ P.ineqs, 0 ≤ P.row d x
  eq : ∀ d ∈ P.eqs, P.row d x = 0
  psd : PSD G
  upper : ∀ i j, i ≤ j → G i j = P.gamma x i j
  sign : nonneg = true → ∀ y ∈ P.vars, 0 ≤ x y

/-- The objective of the primal (sdp_utils.py 423-429). -/
def Prep.primalValue (P : Prep α K n) (x : α → K) : K :=
  P.c0 + ((P.objective.filter fun t => !has P.known t.1).map fun t => t.2 * x t.1).sum

/-- The constant part `b` or `d` of a constraint (sdp_utils.py 271-276). -/
def Prep.const (P : Prep α K n) (d : Dict α K) : K := ((d.filter fun t => has P.known t.1).map fun t => t.2 * (Dict.get P.known t.1).getD 0).sum

/-- `sum_j I_j A_jy`: the column of a free variable (sdp_utils.py 301-320). -/
def Prep.column (P : Prep α K n) (rows : List (Dict α K)) (mult : Nat → K) (y : α) : K :=
  (rows.zipIdx.map fun t => mult t.2 * if has P.known y then 0 else (Dict.get t.1 y).getD 0).sum

/-- The left-hand side of the constraint for a variable in the dual (sdp_utils.py 349-368). -/
def Prep.dualLhs (P : Prep α K n) (Z : Mat n K) (I E : Nat → K) (y : α) : K :=
  (if has P.known y then 0 else (Dict.get P.objective y).getD 0) + ((Dict.get P.masks y).map (inner Z)).getD 0 + P.column P.ineqs I y +
    P.column P.eqs E y

/-- The dual problem handed to MOSEK (sdp_utils.py 297-368). -/
structure Prep.Dual (P : Prep α K n) (nonneg : Bool) (Z : Mat n K) (I E : Nat → K) : Prop where
  psd : PSD Z
  pos : ∀ i, i < P.ineqs.length → 0 ≤ I i
  eq : nonneg = false → ∀ y ∈ P.vars, P.dualLhs Z I E y = 0
  le : nonneg = true → ∀ y ∈ P.vars, P.dualLhs Z I E y ≤ 0

/-- The objective of the dual (sdp_utils.py 322-340). -/
def Prep.dualValue (P : Prep α K n) (feas : Bool) (Z : Mat n K) (I E : Nat → K) : K :=
  (if feas then 0 else P.c0) + inner Z P.F0 + (P.ineqs.zipIdx.map fun t => P.const t.1 * I t.2).sum + (P.eqs.zipIdx.map fun t => P.const t.1 * E t.2).sum

/-- The entry of the certificate for a known variable (sdp_utils.py 480-507), before tiny entries are deleted. `hasMasks` says whether
mask matrices were given. The second assignment replaces the contribution of the objective instead of adding to it. -/
def Prep.certEntry (P : Prep α K n) (feas : Bool) (Z : Mat n K) (I E : Nat → K) (y : α) : K :=
  let first : K := if feas then 0 else (Dict.get P.objective y).getD 0
  let second : K := match Dict.get P.masks y with
    | some F => inner Z F
    | none => first
  second + (P.ineqs.zipIdx.map fun t => I t.2 * (Dict.get t.1 y).getD 0).sum + (P.eqs.zipIdx.map fun t => E t.2 * (Dict.get t.1 y).getD 0).sum

/-- The certificate (sdp_utils.py 480-512): entries which `np.isclose` to zero are deleted. -/
def Prep.certificate (P : Prep α K n) (feas : Bool) (close0 : K → Bool) (Z : Mat n K) (I E : Nat → K) : Dict α K :=
  (P.known.map fun t => (t.1, P.certEntry feas Z I E t.1)).filter fun t => !close0 t.2

/-- The matrix reported as `"F"` when the dual was solved (sdp_utils.py 434-438). The masks of all the variables have been removed by
`Fi.pop(x)` when the constraints were written (347), so only those of non-variables are summed. -/
def Prep.reportedDual (P : Prep α K n) (x : α → K) : Mat n K := fun i j =>
  P.F0 i j + (((P.masks.filter fun t => !decide (t.1 ∈ P.vars)).filter fun t => !has P.known t.1).map fun t => x t.1 * t.2 i j).sum

/-- The matrix reported as `"F"` when the primal was solved (sdp_utils.py 441-443). -/
def reportedPrimal (G : Mat n K) : Mat n K := G

end Verif.SdpSolver
