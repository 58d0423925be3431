import Verif.SdpEnd.Matrix
/-!
The zero moment and the unit are moments of the program if they occur in the moment matrix.
-/
namespace Verif.SdpEnd
open Verif.Common Verif.Canon Verif.Canon.Spec Verif.Scenario Verif.Components Verif.Moment Verif.MomentMatrix Verif.SdpRepr Verif.SymMM Verif.Symmetry
open Verif.State (Dict Mon)
open Verif.EndToEnd (Input)

variable {I : Input} {cols : List (List Nat)} {ch : Choice} {name : Atom → String} {B : Built}

/-- Only the empty product is the unit. -/
theorem opEq_nil {N : Nat} {comm ortho : Nat → Nat → Prop} {u v : List Nat} (h : OpEq N comm ortho u v) : u = [] ↔ v = [] := by
  induction h with
  | refl w => rfl
  | symm _ ih => exact ih.symm
  | trans _ _ ih1 ih2 => exact ih1.trans ih2
  | swap u a b v _ => simp
  | idem u a v => simp
  | zero u a b v _ _ => simp

theorem cell_lt {n i j : Nat} (hi : i < n) (hj : j < n) : i * n + j < n * n :=
  calc i * n + j < i * n + n := by omega
    _ = (i + 1) * n := by rw [Nat.add_mul, Nat.one_mul]
    _ ≤ n * n := Nat.mul_le_mul_right _ hi

theorem cell_ravel {n i j : Nat} (mat : Nat → Nat → Nat) (hi : i < n) (hj : j < n) : (ravel n mat)[i * n + j]? = some (mat i j) := by
  have h1 : (i * n + j) / n = i := by rw [Nat.mul_comm, Nat.mul_add_div (by omega), Nat.div_eq_of_lt hj, Nat.add_zero]
  have h2 : (i * n + j) % n = j := by rw [Nat.mul_comm, Nat.mul_add_mod, Nat.mod_eq_of_lt hj]
  rw [ravel_get (cell_lt hi hj), h1, h2]

/-- The index of a moment belongs to a cell. -/
theorem index_cell (hc : ColsOk (nOps I) (notcomm I) (orthomat I) (allCommute I) cols) {sym repr : List Nat} {orbits : List (Nat × Nat)} {c : Dict Nat (List Nat)}
    (h1 : relaxationMatrix (notcomm I) (orthomat I) (allCommute I) cols (symmetries I) = some (sym, orbits, repr))
    (h2 : symmetrizedCorresp orbits (momentMatrix (notcomm I) (orthomat I) (allCommute I) cols).tbl repr = some c) {k : Nat} {w : List Nat} (hk : c.get k = some w) :
    ∃ i j m1 m2, cols[i]? = some m1 ∧ cols[j]? = some m2 ∧ sym[i * cols.length + j]? = some k ∧ (momentMatrix (notcomm I) (orthomat I) (allCommute I) cols).mat i j ∈ repr ∧
      1 ≤ (momentMatrix (notcomm I) (orthomat I) (allCommute I) cols).mat i j ∧
      (OpEq (nOps I) (fun a b => notcomm I a b = false) (fun a b => orthomat I a b = true) w (m1.reverse ++ m2) ∨
       OpEq (nOps I) (fun a b => notcomm I a b = false) (fun a b => orthomat I a b = true) w (m2.reverse ++ m1)) := by
  have hcon := consistent (operatorList I) (symData I) hc
  obtain ⟨sym', orbits', repr', e', hlen, hrel, horb, hrepr⟩ := C19_symmetrization hcon
  have e2 : (some (sym, orbits, repr) : Option _) = some (sym', orbits', repr') := by
    rw [← h1, ← e']; rfl
  simp only [Option.some.injEq, Prod.mk.injEq] at e2
  obtain ⟨rfl, rfl, rfl⟩ := e2
  obtain ⟨idx, hr, hidx, ho, hco⟩ := (symmetrizedCorresp_get h2).2.1 k w hk
  obtain ⟨a, b, m1, m2, ha, hb, e, hop⟩ := corresp_cell hc hidx hco
  have ha' := (List.getElem?_eq_some_iff.1 ha).1
  have hb' := (List.getElem?_eq_some_iff.1 hb).1
  obtain ⟨k', hk1, hk2⟩ := horb _ _ (cell_ravel _ ha' hb')
  rw [e, ho] at hk2
  have := Option.some.inj hk2
  subst this
  exact ⟨a, b, m1, m2, ha, hb, hk1, by rw [e]; exact hr, by omega, hop⟩

/-- If the moment matrix has a zero, the zero moment is a moment of the program. -/
theorem zero_mem (hc : ColsOk (nOps I) (notcomm I) (orthomat I) (allCommute I) cols) (hB : build I cols ch name = some B) :
    ∀ z, B.env.zero = some z → z ∈ B.env.moments := by
  obtain ⟨orbits, repr, c, eqs, h1, h2, h3, _, _, _, henv⟩ := build_some hB
  intro z hz
  rw [henv] at hz ⊢
  dsimp only at hz ⊢
  split at hz
  swap
  · simp at hz
  rename_i h0
  have := Option.some.inj hz
  subst this
  obtain ⟨hnd, _, _⟩ := symmetrizedCorresp_get h2
  have hg := momentIndex_get (I := I) ch name (B.sym.contains 0) c hnd 0
  have hnone : c.get 0 = none := by
    by_contra hne
    obtain ⟨w, hw⟩ := Option.ne_none_iff_exists'.1 hne
    obtain ⟨i, j, m1, m2, hi, hj, hs, hrep, h1', _⟩ := index_cell hc h1 h2 hw
    have hi' := (List.getElem?_eq_some_iff.1 hi).1
    have hj' := (List.getElem?_eq_some_iff.1 hj).1
    have hrav := cell_ravel (momentMatrix (notcomm I) (orthomat I) (allCommute I) cols).mat hi' hj'
    have hcon := consistent (operatorList I) (symData I) hc
    by_cases hp : columnsSymmetries (notcomm I) (orthomat I) (allCommute I) cols (symmetries I) = []
    · have h1c := h1
      unfold relaxationMatrix at h1c
      unfold applySymmetries at h1c
      rw [if_pos hp] at h1c
      simp only [Option.some.injEq, Prod.mk.injEq] at h1c
      rw [← h1c.1, hrav] at hs
      have := Option.some.inj hs
      omega
    · have hex : ∃ v, v ∈ ravel cols.length (momentMatrix (notcomm I) (orthomat I) (allCommute I) cols).mat := ⟨_, List.mem_of_getElem? hrav⟩
      classical
      have hlo := Nat.find_spec hex
      obtain ⟨q1, q2, q3⟩ := C19_numbering hcon hp h1 (Nat.find hex) hlo fun v hv => Nat.find_min' hex hv
      have hle := (q1 0).1 (List.mem_of_getElem? hs)
      have hlo0 : Nat.find hex = 0 := by omega
      obtain ⟨sym', orbits', repr', e', hlen, hrel, horb, hrepr⟩ := C19_symmetrization hcon
      have e2 : (some (B.sym, orbits, repr) : Option _) = some (sym', orbits', repr') := by
        rw [← h1, ← e']; rfl
      simp only [Option.some.injEq, Prod.mk.injEq] at e2
      obtain ⟨rfl, rfl, rfl⟩ := e2
      rw [hlo0] at hlo
      have hz0 : (0 : Nat) ∈ repr := by
        rw [hrepr 0 hlo]
        intro x y u hx hy hr
        omega
      obtain ⟨y, v, hy, hyr, hv⟩ := q2 _ _ hs
      rw [hlo0] at hv
      have hv0 : v = 0 := by
        obtain ⟨p, hp', e0⟩ := List.getElem_of_mem hz0
        rcases Nat.eq_zero_or_pos p with hp0 | hp0
        · subst hp0
          rw [List.getElem?_eq_getElem hp', e0] at hv
          exact (Option.some.inj hv).symm
        · have := (List.pairwise_iff_getElem.1 q3) 0 p (by omega) hp' hp0
          omega
      subst hv0
      have := (hrepr _ (List.mem_of_getElem? hrav)).1 hrep _ _ _ hrav hy hyr
      omega
  rw [hnone] at hg
  simp only [h0, and_self, if_true] at hg
  rw [h3]
  rw [show (true : Bool) = B.sym.contains 0 from h0.symm] at hg
  exact List.mem_map.2 ⟨(0, [[0]]), (State.get_of_mem _ (momentIndex_nodup ch name _ c) 0 [[0]]).2 hg, rfl⟩

/-- If the generating set contains the unit, the unit is a moment of the program. -/
theorem one_mem (hc : ColsOk (nOps I) (notcomm I) (orthomat I) (allCommute I) cols) (hB : build I cols ch name = some B) (hone : [] ∈ cols) :
    Verif.State.one ∈ B.env.moments := by
  obtain ⟨orbits, repr, c, eqs, h1, h2, h3, _, _, _, henv⟩ := build_some hB
  obtain ⟨i, hi, hie⟩ := List.getElem_of_mem hone
  have hi? : cols[i]? = some [] := by rw [List.getElem?_eq_getElem hi, hie]
  have hcon := consistent (operatorList I) (symData I) hc
  obtain ⟨sym', orbits', repr', e', hlen, hrel, horb, hrepr⟩ := C19_symmetrization hcon
  have e2 : (some (B.sym, orbits, repr) : Option _) = some (sym', orbits', repr') := by
    rw [← h1, ← e']; rfl
  simp only [Option.some.injEq, Prod.mk.injEq] at e2
  obtain ⟨rfl, rfl, rfl⟩ := e2
  obtain ⟨sym', orbits', repr', h', hiff⟩ := C19_every_problem I.scenario I.D I.anyNonclassical (allCommute I) cols hc
  have e2 : (some (B.sym, orbits, repr) : Option _) = some (sym', orbits', repr') := by
    rw [← h1, ← h']; rfl
  simp only [Option.some.injEq, Prod.mk.injEq] at e2
  obtain ⟨rfl, rfl, rfl⟩ := e2
  have hrav := cell_ravel (momentMatrix (notcomm I) (orthomat I) (allCommute I) cols).mat hi hi
  set v := (momentMatrix (notcomm I) (orthomat I) (allCommute I) cols).mat i i with hv
  -- cells with the same index
  have hsame : ∀ k l m3 m4, cols[k]? = some m3 → cols[l]? = some m4 → B.sym[i * cols.length + i]? = B.sym[k * cols.length + l]? → m3 = [] ∧ m4 = [] := by
    intro k l m3 m4 hk hl e
    obtain ⟨r, _, _, hop⟩ := (hiff i i k l [] [] m3 m4 hi? hi? hk hl).1 e
    rcases hop with hop | hop
    · have := (opEq_nil hop).1 rfl
      simp only [List.append_eq_nil_iff, List.reverse_eq_nil_iff] at this
      exact this
    · have := (opEq_nil hop).1 rfl
      simp only [List.append_eq_nil_iff, List.reverse_eq_nil_iff] at this
      exact this.symm
  have hidx : ∀ k, cols[k]? = some [] → k = i := by
    intro k hk
    obtain ⟨hk', e⟩ := List.getElem?_eq_some_iff.1 hk
    exact (List.Nodup.getElem_inj_iff hc.nodup).1 (e.trans hie.symm)
  have hv0 : v ≠ 0 := by
    intro h0
    have hop := (C18_zero_entries (operatorList I) (allCommute I) hc.comm cols hc.lt i i _ _ hi? hi?).1 h0
    have := (opEq_nil hop).1 rfl
    simp at this
  have hmem : v ∈ repr := by
    rw [hrepr v (List.mem_of_getElem? hrav)]
    intro x y u hx hy hr
    have hxlt : x < cols.length * cols.length := by simpa [ravel] using (List.getElem?_eq_some_iff.1 hx).1
    have hylt : y < cols.length * cols.length := by simpa [ravel] using (List.getElem?_eq_some_iff.1 hy).1
    have hn0 : 0 < cols.length := by omega
    have hyi : y / cols.length < cols.length := Nat.div_lt_of_lt_mul hylt
    have hyj : y % cols.length < cols.length := Nat.mod_lt _ hn0
    have hye : y / cols.length * cols.length + y % cols.length = y := by rw [Nat.mul_comm]; exact Nat.div_add_mod y cols.length
    have hs : B.sym[i * cols.length + i]? = B.sym[y]? := by
      rw [← (hrel _ _ hxlt hylt).2 hr]
      obtain ⟨w1, e1, e2⟩ := horb _ _ hrav
      obtain ⟨w2, e3, e4⟩ := horb _ _ hx
      rw [e1, e3, ← e2, ← e4]
    obtain ⟨q1, q2⟩ := hsame (y / cols.length) (y % cols.length) _ _ (List.getElem?_eq_getElem hyi) (List.getElem?_eq_getElem hyj) (by rw [hye]; exact hs)
    have e1 := hidx _ (by rw [List.getElem?_eq_getElem hyi, q1])
    have e2 := hidx _ (by rw [List.getElem?_eq_getElem hyj, q2])
    have := cell_ravel (momentMatrix (notcomm I) (orthomat I) (allCommute I) cols).mat hyi hyj
    rw [hye, hy, e1, e2] at this
    have := Option.some.inj this
    omega
  obtain ⟨hnd, _, hc2⟩ := symmetrizedCorresp_get h2
  obtain ⟨k, w, hk, hw⟩ := hc2 v hmem (by omega)
  obtain ⟨a, b, m1, m2, ha, hb, hs, _, _, hop⟩ := index_cell hc h1 h2 hw
  have hsk : B.sym[i * cols.length + i]? = some k := by
    obtain ⟨w1, e1, e2⟩ := horb _ _ hrav
    rw [e1, ← e2, hk]
  obtain ⟨rfl, rfl⟩ := hsame a b m1 m2 ha hb (hsk.trans hs.symm)
  have hwn : w = [] := by
    rcases hop with hop | hop <;> exact (opEq_nil hop).2 rfl
  subst hwn
  have hg := momentIndex_get (I := I) ch name (B.sym.contains 0) c hnd k
  rw [hw] at hg
  have hone : momentOf I ch name [] = Verif.State.one := by
    unfold momentOf
    rw [show factorize I.scenario (([] : List Nat).map (· - 1)) = [[]] by simp [factorize]]
    simp only [List.contains_nil, Bool.false_eq_true, if_false, List.isEmpty_nil, Bool.not_true, List.filter_cons_of_neg, not_false_eq_true, List.filter_nil, List.map_nil]
    unfold SdpState.monFromAtoms
    simp [sortBy, Verif.State.one]
  dsimp only at hg
  rw [hone] at hg
  rw [henv]
  show _ ∈ B.index.map Prod.snd
  rw [h3]
  exact List.mem_map.2 ⟨(k, _), (State.get_of_mem _ (momentIndex_nodup ch name _ c) k _).2 hg, rfl⟩

end Verif.SdpEnd
