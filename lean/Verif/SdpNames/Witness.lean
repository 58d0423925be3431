import Verif.SdpNames.Props
import Verif.SdpSearch.Witness
import Verif.Theory.Witness
/-!
The hypotheses of C67 are met: the Bell scenario, with moments of noncommuting operators. The search for certificates (C66) with the names that the program gives.
-/
namespace Verif.SdpNames
open Verif.Common Verif.Canon Verif.Scenario Verif.Moment Verif.SdpRepr Verif.SdpEnd Verif.Text Verif.Names
open Verif.State (Mon)
open Verif.EndToEnd (Input CausalModel WellFormed)
open Verif.Sanitise (naming constantName NamesOk)
open Verif.Theory (bell)
open Verif.SdpSearch (Ready NamesDiffer TrustedCertificate FromCertificate Agrees maxDual)
open Verif.Search (Expr Options)

theorem usual_nil (I : Input) : UsualMem I ⟨[], []⟩ := ⟨[], by simp, rfl⟩

theorem fresh_usual (I : Input) : UsualChoice (freshChoice I) I where
  atomOf := fun _ _ _ => .direct (usual_nil I)
  dagger := fun a ha _ => ⟨_, usual_nil I, if_pos (by simpa [InRange] using ha)⟩

/-- The names of the parties. -/
def bellNames : List Str := [['A'], ['B']]

/-- A word equal to its canonical form cannot be simplified. -/
theorem reduced_of_canonical {I : Input} {w : List Nat} (hw : InRange I w) (h : toCanonical (notcomm I) (orthomat I) false false w = w) : Reduced (notcomm I) (orthomat I) w := by
  have := reduced_canonical (operatorList I) hw
  rwa [h] at this

/-- The moment of `A₀A₁B₀` (for outcome 0). -/
theorem bell_long : momentOf bell (freshChoice bell) letters [1, 3, 5] = [[1, 3, 5]] := by decide +kernel

theorem bell_known : momentOf bell (freshChoice bell) letters [1, 5] = [[1, 5]] := by decide +kernel

/-- The table after these two moments have been made. -/
def bellTable : Table := register (register start [[1, 3, 5]] "<A_0=0 A_1=0 B_0=0>".toList "<A_1_0_0 A_1_1_0 B_1_0_0>".toList) [[1, 5]] "P[A_0=0 B_0=0]".toList "pAB(00|00)".toList

theorem bell_reachable : Reachable bell bellNames (freshChoice bell) letters bellTable := by
  have h1 : Step bell bellNames (freshChoice bell) letters start (register start [[1, 3, 5]] "<A_0=0 A_1=0 B_0=0>".toList "<A_1_0_0 A_1_1_0 B_1_0_0>".toList) := by
    rw [← bell_long]
    refine .word (by decide +kernel) (reduced_of_canonical (by decide +kernel) (by decide +kernel)) ?_ ?_
    · rw [bell_long]
      exact ⟨[createdText bell bellNames [1, 3, 5]], .cons .created .nil, by decide +kernel⟩
    · rw [bell_long]
      exact ⟨[legacyText bell bellNames [1, 3, 5]], .cons .own .nil, by decide +kernel⟩
  have h2 : ∀ s, Step bell bellNames (freshChoice bell) letters s (register s [[1, 5]] "P[A_0=0 B_0=0]".toList "pAB(00|00)".toList) := by
    intro s
    rw [← bell_known]
    refine .word (by decide +kernel) (reduced_of_canonical (by decide +kernel) (by decide +kernel)) ?_ ?_
    · rw [bell_known]
      exact ⟨[createdText bell bellNames [1, 5]], .cons .created .nil, by decide +kernel⟩
    · rw [bell_known]
      exact ⟨[legacyText bell bellNames [1, 5]], .cons .own .nil, by decide +kernel⟩
  exact (Relation.ReflTransGen.refl.tail h1).tail (h2 _)

/-- The hypotheses of C67 are met; the name of `A₀A₁B₀` is read back, after another moment has been made. -/
example : NamesOk bell bellNames ∧ copiesOf bell.scenario ≤ 254 ∧ UsualChoice (freshChoice bell) bell ∧ Reachable bell bellNames (freshChoice bell) letters bellTable ∧
    ([[1, 3, 5]], "<A_0=0 A_1=0 B_0=0>".toList) ∈ bellTable.created ∧ readName (fun _ => none) bellTable "<A_0=0 A_1=0 B_0=0>".toList = some [[1, 3, 5]] := by
  have hN : NamesOk bell bellNames := by decide
  have hS : copiesOf bell.scenario ≤ 254 := by decide +kernel
  have hm : ([[1, 3, 5]], "<A_0=0 A_1=0 B_0=0>".toList) ∈ bellTable.created := by decide +kernel
  exact ⟨hN, hS, fresh_usual _, bell_reachable, hm, C67_name_reads_back hN hS (fresh_usual _) bell_reachable .refl hm _⟩

/-- The names of the moments of the program when each of them is made as it is. -/
def createdName (I : Input) (names : List Str) : Option Mon → String
  | none => String.ofList constantName
  | some m => String.ofList (joinChars (m.map (createdText I names)))

theorem createdName_program (I : Input) (names : List Str) (B : Built) : ProgramNames I names B (createdName I names) := by
  refine ⟨fun m _ => ⟨_, ⟨m.map (createdText I names), ?_, rfl⟩, rfl⟩, rfl⟩
  rw [List.forall₂_map_right_iff]
  exact List.forall₂_same.2 fun a _ => .created

/-- The hypotheses of `C67_certificate_names` are met by the program with the columns `1` and `A₀`. -/
example : ∃ B, Setup Search.coin SdpSearch.coinCols (freshChoice Search.coin) letters B ∧ NamesDiffer B (createdName Search.coin [['A']]) ∧ createdName Search.coin [['A']] (some [[1]]) = "P[A=0]" := by
  obtain ⟨B, hV, -⟩ := SdpSearch.coin_setup
  exact ⟨B, hV, C67_certificate_names (by decide) hV (fresh_usual _) (createdName_program _ _ _), by decide +kernel⟩

section
variable {I : Input} {names : List Str} {cols : List (List Nat)} {ch : Choice} {name : Atom → String} {B : Built}

/-- **C67 and C66: the search with certificates does not miss classical models**, with the names which the program gives to moments. -/
theorem C67_search_with_program_names (hI : I.Accepted) (hD : WellFormed I.D) (hso : HasSources I.D) (hNa : NamesOk I names) (hch : UsualChoice ch I) (hV : Setup I cols ch name B)
    {solver : SdpState.Args → SdpState.SolverOut} {h0 : List (SdpState.Call Mon)} (hR : Ready B solver h0) {nameOf : Option Mon → String} (hN : ProgramNames I names B nameOf)
    {cert : SdpState.Args → Option (List (String × Rat))} (hC : TrustedCertificate cols.length B nameOf cert) {sym : List (Mon × Expr)} (hsym : ∀ t ∈ sym, t.1 ∈ B.env.moments) {o : Options} (hlpi : o.lpi = false)
    {minimize : (Rat → Rat) → Rat} (hm : ∀ g, FromCertificate nameOf cert sym g → Optimize.IsGlobalMax o.b0 o.b1 g (minimize g)) {fuel : Nat} {x : Rat} {bounds : List (Rat × Rat)} {s' : SdpState.St}
    (h : maxDual B.env solver cert (fun m => nameOf (some m)) sym minimize o fuel (SdpState.run B.env solver h0) = some (some (x, bounds), s')) {p : Rat} (hp0 : o.b0 ≤ p) (hp1 : p ≤ o.b1)
    {Λ : Type} [Fintype Λ] (M : CausalModel I.D I.outcomes I.priv Λ ℝ) (hM : ∀ c ∈ h0, BoundsTrue (inflated hI hD hso M).moment c) (hv : Agrees (inflated hI hD hso M) sym p) :
    p ≤ x ∧ ∀ t ∈ bounds, p ≤ t.2 :=
  SdpSearch.C66_certificates_not_below_classical hI hD hso hV hR (C67_certificate_names hNa hV hch hN) hC hsym hlpi hm h hp0 hp1 M hM hv

end
end Verif.SdpNames
