import Verif.Scenario.Spec
/-
What an inflation symmetry is: independently for every source a permutation of its copies.
-/
namespace Verif.Symmetry
open Verif.Scenario

/-- `g s` permutes the copies `1..level s` of source `s` and leaves the marker 0 ("not measured") alone. -/
def Relabelling (S : Scenario) (g : Nat → Nat → Nat) : Prop :=
  ∀ s, s < S.nSources → g s 0 = 0 ∧
    (∀ c, 1 ≤ c → c ≤ max (S.level s) 1 → 1 ≤ g s c ∧ g s c ≤ max (S.level s) 1) ∧
    (∀ c d, 1 ≤ c → c ≤ max (S.level s) 1 → 1 ≤ d → d ≤ max (S.level s) 1 → g s c = g s d → c = d)

/-- Relabelling the copies an operator acts on. -/
def act (g : Nat → Nat → Nat) (op : Op) : Op :=
  { op with copies := op.copies.mapIdx g }

/-- Row `r` is the permutation of the operator list induced by `g`: operator number `i` is sent to
operator number `r[i]`. -/
def Induces (S : Scenario) (g : Nat → Nat → Nat) (r : List Nat) : Prop :=
  r.length = S.lexorder.length ∧
    ∀ i, i < S.lexorder.length → ∃ j, r[i]? = some j ∧ S.lexorder[j]? = (S.lexorder[i]?).map (act g)

end Verif.Symmetry
