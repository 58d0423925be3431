import Verif.SdpSolver.Model
/-
What the arguments of the SDP solver mean, independently of how they are processed.
-/
namespace Verif.SdpSolver
open Verif.State

variable {α K : Type} [DecidableEq α] [Field K] [LinearOrder K] {n : Nat}

/-- The moment matrix of an assignment of values to all the moments. -/
def Input.momentMatrix (inp : Input α K n) (v : α → K) : Mat n K := fun i j => (inp.masks.map fun t => t.2 i j * v t.1).sum

/-- The names occurring in the problem, except those of known variables. -/
def Input.Unknown (inp : Input α K n) (y : α) : Prop :=
  y ∉ inp.known.keys ∧ (y ∈ inp.masks.keys ∨ y ∈ inp.objective.keys ∨ (∃ d ∈ inp.eqs, y ∈ d.keys) ∨ (∃ d ∈ inp.ineqs, y ∈ d.keys) ∨
    ∃ s ∈ inp.semiknown, y = s.1 ∨ y = s.2.2)

/-- The values satisfy the program: the known values, the proportionalities, the linear constraints, `Γ - s·1 ⪰ 0`, and non-negativity when
it is the default. -/
structure Input.Solves (inp : Input α K n) (nonneg : Bool) (v : α → K) (s : K) : Prop where
  known : ∀ t ∈ inp.known, v t.1 = t.2
  semi : ∀ t ∈ inp.semiknown, v t.1 = t.2.1 * v t.2.2
  ineq : ∀ d ∈ inp.ineqs, 0 ≤ lin d v
  eq : ∀ d ∈ inp.eqs, lin d v = 0
  psd : PSD fun i j => inp.momentMatrix v i j - if i = j then s else 0
  sign : nonneg = true → ∀ y, inp.Unknown y → 0 ≤ v y

/-- Properties of the arguments: dictionaries have one entry per key, the mask matrices are symmetric, and a semi-known moment is
proportional to a moment which is neither known nor semi-known, and not known itself (C26 and C27). -/
structure Input.Ok (inp : Input α K n) : Prop where
  masks : inp.masks.keys.Nodup
  objective : inp.objective.keys.Nodup
  known : inp.known.keys.Nodup
  semiknown : inp.semiknown.keys.Nodup
  ineqs : ∀ d ∈ inp.ineqs, d.keys.Nodup
  eqs : ∀ d ∈ inp.eqs, d.keys.Nodup
  symm : ∀ t ∈ inp.masks, ∀ i j, t.2 i j = t.2 j i
  semi_unknown : ∀ s ∈ inp.semiknown, s.1 ∉ inp.known.keys
  target_unknown : ∀ s ∈ inp.semiknown, s.2.2 ∉ inp.known.keys
  target_free : ∀ s ∈ inp.semiknown, s.2.2 ∉ inp.semiknown.keys

/-- The names `"lambda"`, `"lambda_"`, … are pairwise different, and not names of known or semi-known moments. -/
structure Flags.Fresh (fl : Flags α) (inp : Input α K n) : Prop where
  inj : ∀ a b, fl.lam a = fl.lam b → a = b
  known : ∀ k, fl.lam k ∉ inp.known.keys
  semi : ∀ k, ∀ s ∈ inp.semiknown, fl.lam k ≠ s.1 ∧ fl.lam k ≠ s.2.2

/-- The value of a certificate at given known values. -/
def certValue (cert : Dict α K) (v : α → K) : K := lin cert v

end Verif.SdpSolver
