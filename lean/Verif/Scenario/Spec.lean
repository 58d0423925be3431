import Verif.Scenario.Model
/-
Specification of the operators of an inflated scenario, independent of how they are enumerated.
-/
namespace Verif.Scenario

/-- An operator exists in the inflated scenario iff its party exists, it carries one copy label per source –
`0` for sources the party does not measure and a label in `1..level` (at least one copy) for the
others – and its setting and outcome are in range. -/
structure Valid (S : Scenario) (op : Op) : Prop where
  party_pos : 1 ≤ op.party
  party_le : op.party ≤ S.nParties
  copies_len : op.copies.length = S.nSources
  copies_ok : ∀ s (h : s < op.copies.length),
    if S.hyp s (op.party - 1) then 1 ≤ op.copies[s] ∧ op.copies[s] ≤ max (S.level s) 1
    else op.copies[s] = 0
  setting_lt : op.setting < S.settings (op.party - 1)
  outcome_lt : op.outcome < S.outcomes (op.party - 1)

end Verif.Scenario
