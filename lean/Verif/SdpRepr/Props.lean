import Verif.SdpRepr.Lemmas
/-
C34 memoised canonicalisation, C47 representatives of moments under the inflation symmetries.
-/
namespace Verif.SdpRepr
open Verif.Canon Verif.Canon.Spec Verif.Common Verif.MomentMatrix Verif.SymMM Verif.Orbits Verif.Scenario Verif.Symmetry

variable {N : Nat} {nc om : BMat} {meas : Nat → Nat} {commuting : Bool} {rows : List (List Nat)}

/-! ## C34 -/

/-- **C34, reduced monomials.** Whatever was canonicalised before, with whatever flags, the memoised canonical form of a monomial in which nothing can be
simplified is the one computed directly, for both values of the flag. -/
theorem C34_memo_correct_on_reduced_partial (H : OperatorList N nc om meas) (hcomm : commuting = true → ∀ a b, nc a b = false)
    (history : List (Bool × List Nat)) (flag : Bool) (w : List Nat) (hw : Reduced nc om w) :
    (canonMemo nc om commuting (history.foldl (fun c a => (canonMemo nc om commuting c a.1 a.2).1) []) flag w).2 =
      toCanonical nc om commuting flag w := by
  have key : ∀ (l : List (Bool × List Nat)) (c : Memo), CanonOk nc om c →
      CanonOk nc om (l.foldl (fun c a => (canonMemo nc om commuting c a.1 a.2).1) c) := by
    intro l
    induction l with
    | nil => exact fun c hc => hc
    | cons a t ih => intro c hc; exact ih _ (canonMemo_ok H hcomm hc a.1 a.2).1
  rw [(canonMemo_ok H hcomm (key history [] (by intro k v hk; simp at hk)) flag w).2 hw, canonAny hw hcomm flag]

/-- **C34, one flag.** If all calls so far used the same flag as the present one, the memoised form is the directly computed one for every
monomial (a repetition of the zero operator excepted, which is returned as it is). -/
theorem C34_memo_correct_one_flag_partial (H : OperatorList N nc om meas) (hcomm : commuting = true → ∀ a b, nc a b = false)
    (flag : Bool) (history : List (List Nat)) (w : List Nat) (hw : w.length ≤ 1 ∨ ∃ x ∈ w, x ≠ 0) :
    (canonMemo nc om commuting (history.foldl (fun c a => (canonMemo nc om commuting c flag a).1) []) flag w).2 =
      toCanonical nc om commuting flag w := by
  have e : ∀ w, toCanonical nc om commuting flag w = toCanonical nc om false flag w := by
    intro w
    cases commuting with
    | false => rfl
    | true => exact C05_commuting_shortcut_agrees nc om flag w (fun a _ b _ => hcomm rfl a b)
  have hidem : ∀ w, toCanonical nc om commuting flag (toCanonical nc om commuting flag w) = toCanonical nc om commuting flag w := by
    intro w
    rw [e, e]
    exact C04_canonical_idempotent nc om H.nc_symm H.nc_diag flag w
  let P : Memo → Prop := fun c => ∀ k v, c.lookup k = some v → v = toCanonical nc om commuting flag k ∨ (allZero k = true ∧ v = k)
  have hshort : ∀ w : List Nat, w.length ≤ 1 → toCanonical nc om commuting flag w = w := by
    intro w hl; unfold toCanonical; rw [if_pos hl]
  have step : ∀ (c : Memo) (a : List Nat), P c → P (canonMemo nc om commuting c flag a).1 ∧
      ((canonMemo nc om commuting c flag a).2 = toCanonical nc om commuting flag a ∨
        (allZero a = true ∧ (canonMemo nc om commuting c flag a).2 = a)) := by
    intro c a hc
    unfold canonMemo
    split
    · rename_i r hr
      exact ⟨hc, hc a r hr⟩
    · split
      · rename_i h0
        refine ⟨?_, .inr ⟨h0, rfl⟩⟩
        intro k v hkv
        rcases lookup_cons_some hkv with ⟨rfl, rfl⟩ | h
        · exact .inr ⟨h0, rfl⟩
        · exact hc k v h
      · refine ⟨?_, .inl rfl⟩
        intro k v hkv
        rcases lookup_cons_some hkv with ⟨rfl, rfl⟩ | h
        · exact .inl (hidem a).symm
        · rcases lookup_cons_some h with ⟨rfl, rfl⟩ | h
          · exact .inl rfl
          · exact hc k v h
  have key : ∀ (l : List (List Nat)) (c : Memo), P c → P (l.foldl (fun c a => (canonMemo nc om commuting c flag a).1) c) := by
    intro l
    induction l with
    | nil => exact fun c hc => hc
    | cons a t ih => intro c hc; exact ih _ (step c a hc).1
  rcases (step _ w (key history [] (by intro k v hk; simp at hk))).2 with h | ⟨h0, h⟩
  · exact h
  · rcases hw with hw | ⟨x, hx, hne⟩
    · rw [h, hshort w hw]
    · simp only [allZero, List.all_eq_true, beq_iff_eq] at h0
      exact absurd (h0 x hx) hne

/-- **C34 is false in general.** Canonicalising a square with the flag "only commutations" makes a later full canonicalisation return
the square unsimplified. -/
theorem C34_flag_leaks (om : BMat) (h11 : om 1 1 = false) :
    let c := (canonMemo (fun _ _ => false) om false [] true [1, 1]).1
    (canonMemo (fun _ _ => false) om false c false [1, 1]).2 = [1, 1] ∧
    toCanonical (fun _ _ => false) om false false [1, 1] = [1] := by
  have h1 : toCanonical (fun _ _ => false) om false true [1, 1] = [1, 1] := by
    rw [canonTrue]
    exact (List.perm_replicate (n := 2) (a := 1)).1 (canon_sound (fun _ _ => false) [1, 1]).perm.symm
  have h2 : lexmonToCanonical (fun _ _ => false) [1, 1] = [1, 1] := by rw [← canonTrue (om := om)]; exact h1
  refine ⟨?_, ?_⟩
  · simp [canonMemo, allZero, h1]
  · rw [toCanonical_eq, h2]
    simp [hasOrthoPair, removeSquares, h11]

/-- **C34**: a repetition of the zero operator is not simplified by the memoised version. -/
theorem C34_repeated_zero (om : BMat) (h : om 0 0 = true) :
    (canonMemo (fun _ _ => false) om false [] false [0, 0]).2 = [0, 0] ∧
    toCanonical (fun _ _ => false) om false false [0, 0] = [0] := by
  have h2 : lexmonToCanonical (fun _ _ => false) [0, 0] = [0, 0] :=
    (List.perm_replicate (n := 2) (a := 0)).1 (canon_sound (fun _ _ => false) [0, 0]).perm.symm
  refine ⟨by simp [canonMemo, allZero], ?_⟩
  rw [toCanonical_eq, h2]
  simp [hasOrthoPair, removeSquares, h]

/-! ## C47 -/

/-- **C47, the representative.** After any history of canonicalisations (of any monomials, with any flags) and of representative
computations of reduced monomials, the representative of a reduced monomial is the first word, in dictionary order, that is reachable from
it by inflation symmetries and exchanges of commuting neighbours. -/
theorem C47_representative_is_least (H : OperatorList N nc om meas) (h : SymData N nc om rows)
    (hcomm : commuting = true → ∀ a b, nc a b = false) (history : List Call) (hh : ∀ c ∈ history, OkCall N nc om c)
    (flag : Bool) (w : List Nat) (hw : ∀ x ∈ w, x < N) (hred : Reduced nc om w) :
    IsLeast nc rows w (reprMemo nc om commuting rows (after nc om commuting rows history) flag w).2 := by
  obtain ⟨h1, h2⟩ := after_ok H h hcomm history hh
  exact (reprMemo_ok H h hcomm h1 h2 flag hw hred).2.2

/-- **C47.** Two reduced monomials get the same representative, whatever was computed before either, exactly when a symmetry
followed by exchanges of commuting neighbours turns one into the other. -/
theorem C47_same_representative_iff (H : OperatorList N nc om meas) (h : SymData N nc om rows)
    (hcomm : commuting = true → ∀ a b, nc a b = false) (history history' : List Call)
    (hh : ∀ c ∈ history, OkCall N nc om c) (hh' : ∀ c ∈ history', OkCall N nc om c) (flag flag' : Bool) (u v : List Nat)
    (hu : ∀ x ∈ u, x < N) (hv : ∀ x ∈ v, x < N) (hru : Reduced nc om u) (hrv : Reduced nc om v) :
    (reprMemo nc om commuting rows (after nc om commuting rows history) flag u).2 =
      (reprMemo nc om commuting rows (after nc om commuting rows history') flag' v).2 ↔ SameOrbit nc rows u v := by
  have e1 := C47_representative_is_least H h hcomm history hh flag u hu hru
  have e2 := C47_representative_is_least H h hcomm history' hh' flag' v hv hrv
  constructor
  · intro e
    rw [e] at e1
    exact sameOrbit_trans h hu e1.1 (sameOrbit_symm h hv e2.1)
  · intro e
    exact isLeast_unique (isLeast_congr h hu e e1) e2

/-- **C47 for every problem.** The hypotheses hold for the operators and the symmetries of every scenario. -/
theorem C47_every_problem (S : Scenario) (D : DagInput) (q : Bool) (history history' : List Call) (flag flag' : Bool) (u v : List Nat)
    (hh : ∀ c ∈ history, OkCall (S.lexorder.length + 1) (padMat (S.notcomm D.tbl q)) S.orthomat c)
    (hh' : ∀ c ∈ history', OkCall (S.lexorder.length + 1) (padMat (S.notcomm D.tbl q)) S.orthomat c)
    (hu : ∀ x ∈ u, x < S.lexorder.length + 1) (hv : ∀ x ∈ v, x < S.lexorder.length + 1)
    (hru : Reduced (padMat (S.notcomm D.tbl q)) S.orthomat u) (hrv : Reduced (padMat (S.notcomm D.tbl q)) S.orthomat v) :
    (reprMemo (padMat (S.notcomm D.tbl q)) S.orthomat false (sdpSymmetries S)
        (after (padMat (S.notcomm D.tbl q)) S.orthomat false (sdpSymmetries S) history) flag u).2 =
      (reprMemo (padMat (S.notcomm D.tbl q)) S.orthomat false (sdpSymmetries S)
        (after (padMat (S.notcomm D.tbl q)) S.orthomat false (sdpSymmetries S) history') flag' v).2 ↔
      SameOrbit (padMat (S.notcomm D.tbl q)) (sdpSymmetries S) u v :=
  C47_same_representative_iff (scenario_operatorList S D.tbl q) (scenario_symData S D q) (by simp) history history' hh hh' flag flag'
    u v hu hv hru hrv

/-- **C47 is false for monomials that can be simplified.** Two operators exchanged by a symmetry: asking for the representative of the
square of the second one makes the representative of the second operator itself the square of the first one, whereas a fresh problem answers
with the first operator. -/
theorem C47_square_corrupts (om : BMat) (h1 : om 1 1 = false) (h2 : om 2 2 = false) :
    let rows := [[0, 1, 2], [0, 2, 1]]
    let nc : BMat := fun _ _ => false
    (reprMemo nc om false rows (after nc om false rows [.repr false [2, 2]]) false [2]).2 = [1, 1] ∧
    (reprMemo nc om false rows (after nc om false rows []) false [2]).2 = [1] := by
  have can : ∀ a, lexmonToCanonical (fun _ _ => false) [a, a] = [a, a] := fun a =>
    (List.perm_replicate (n := 2) (a := a)).1 (canon_sound (fun _ _ => false) [a, a]).perm.symm
  have t1 : ∀ a, toCanonical (fun _ _ => false) om false true [a, a] = [a, a] := fun a => by rw [canonTrue, can]
  have t2 : toCanonical (fun _ _ => false) om false false [2, 2] = [2] := by
    rw [toCanonical_eq, can]; simp [hasOrthoPair, removeSquares, h2]
  have t3 : ∀ a f, toCanonical (fun _ _ => false) om false f [a] = [a] := fun a f => by simp [toCanonical]
  have v1 : variants [[0, 1, 2], [0, 2, 1]] [2, 2] = [[1, 1], [2, 2]] := by decide
  have v2 : variants [[0, 1, 2], [0, 2, 1]] [2] = [[1], [2]] := by decide
  refine ⟨?_, ?_⟩
  · simp [after, Call.run, reprMemo, allZero, canonMemo, t2, v1, canonAll, t1, minTuple, lexMin, lexLe, List.lookup_cons]
  · simp [after, reprMemo, allZero, canonMemo, t3, v2, canonAll, minTuple, lexMin, lexLe, List.lookup_cons]

/-! Non-vacuity: three operators of which 1 and 2 are exchanged and do not commute. -/
def exNc : BMat := fun a b => (a == 1 && b == 2) || (a == 2 && b == 1)
def exOm : BMat := fun a b => decide (a < 3 ∧ b < 3 ∧ (a = 0 ∨ b = 0))
def exRows : List (List Nat) := [[0, 1, 2], [0, 2, 1]]

theorem ex_rigid {w v : List Nat} (h : CommEq (fun a b => exNc a b = false) w v) (hw : w = [2, 1] ∨ w = [1, 2]) : v = w := by
  have key : ∀ {w v : List Nat}, CommEq (fun a b => exNc a b = false) w v → (w = [2, 1] ↔ v = [2, 1]) ∧ (w = [1, 2] ↔ v = [1, 2]) := by
    intro w v h
    induction h with
    | refl w => simp
    | symm _ ih => exact ⟨ih.1.symm, ih.2.symm⟩
    | trans _ _ ih1 ih2 => exact ⟨ih1.1.trans ih2.1, ih1.2.trans ih2.2⟩
    | swap u a b v hab =>
      have hne : ∀ c d : Nat, exNc c d = true → u ++ a :: b :: v ≠ [c, d] ∧ u ++ b :: a :: v ≠ [c, d] := by
        intro c d hcd
        have hsym : exNc d c = true := by
          simp only [exNc, Bool.or_eq_true, Bool.and_eq_true, beq_iff_eq] at hcd ⊢
          omega
        match u with
        | [] =>
          simp only [List.nil_append, ne_eq, List.cons.injEq, not_and]
          refine ⟨?_, ?_⟩
          · rintro rfl rfl; simp [hab] at hcd
          · rintro rfl rfl; simp [hab] at hsym
        | [x] => simp
        | x :: y :: u => simp
      have h1 := hne 2 1 (by decide)
      have h2 := hne 1 2 (by decide)
      simp [h1.1, h1.2, h2.1, h2.2]
  rcases hw with rfl | rfl
  · exact ((key h).1.1 rfl)
  · exact ((key h).2.1 rfl)

example : Reduced exNc exOm [2, 1] := by
  intro u a b v h
  have := ex_rigid h (.inl rfl)
  match u, this with
  | [], e => simp at e; obtain ⟨rfl, rfl, _⟩ := e; decide
  | [x], e => simp at e
  | x :: y :: u, e => simp at e
example : OperatorList 3 exNc exOm id where
  pos := by omega
  nc_symm := by intro a b; simp only [exNc, Bool.or_comm, Bool.and_comm]
  nc_diag := by intro a; simp [exNc]; omega
  nc_meas := by intro a b c _ _ _ _ h; simp only [id] at h; rw [h]
  contiguous := by intro a b c _ h1 h2 _ h; simp only [id] at *; omega
  ortho_iff := by intro a b ha hb; simp only [exOm, id, decide_eq_true_eq]; omega
example : SymData 3 exNc exOm exRows where
  group := ⟨rfl, by decide, by decide, by decide⟩
  zero := by decide
  comm := by
    intro r hr a b
    simp only [exRows, List.mem_cons, List.not_mem_nil, or_false] at hr
    rcases hr with rfl | rfl <;> rcases a with _ | _ | _ | a <;> rcases b with _ | _ | _ | b <;> simp [exNc]
  ortho := by
    intro r hr a b
    simp only [exRows, List.mem_cons, List.not_mem_nil, or_false] at hr
    rcases hr with rfl | rfl <;> rcases a with _ | _ | _ | a <;> rcases b with _ | _ | _ | b <;> simp [exOm]
example : SameOrbit exNc exRows [2, 1] [1, 2] := ⟨[0, 2, 1], by decide, .refl _⟩

end Verif.SdpRepr
