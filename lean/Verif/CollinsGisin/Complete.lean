import Mathlib.Algebra.Order.BigOperators.Group.List
import Mathlib.Algebra.Order.Ring.Defs
import Verif.CollinsGisin.Props
import Verif.CollinsGisin.Relabel
/-! Converse of C28: the rows have no other solutions than behaviours. -/
namespace Verif.CollinsGisin
open Verif.Orbits
open Verif.Common

variable {n : Nat} {adj : Nat → Nat → Bool} {gs : Groups} {syms : List (List Nat)} {symReq : Bool} {K : Type} [CommRing K]

theorem mapM_mem {α β : Type} {f : α → Option β} {l : List α} {r : List β} (h : l.mapM f = some r) {a : α} (ha : a ∈ l) :
    ∃ b ∈ r, f a = some b := by
  induction l generalizing r with
  | nil => simp at ha
  | cons c l ih =>
    simp only [List.mapM_cons, Option.pure_def, Option.bind_eq_bind, Option.bind_eq_some_iff, Option.some.injEq] at h
    obtain ⟨b, hb, r', hr', rfl⟩ := h
    rcases List.mem_cons.1 ha with rfl | ha
    · exact ⟨b, by simp, hb⟩
    · obtain ⟨b', hb', hf⟩ := ih hr' ha
      exact ⟨b', List.mem_cons_of_mem _ hb', hf⟩

theorem toRow_inv {col : List Bool → Option Nat} {ts : List (Bool × List Bool)} {row : List (Int × Nat)} (h : toRow col ts = some row) (x : Nat → K) :
    rowValue x row = (ts.map fun t => (sg t.1 : K) * x ((col t.2).getD 0)).sum := by
  unfold toRow at h
  induction ts generalizing row with
  | nil =>
    simp only [List.mapM_nil, Option.pure_def, Option.some.injEq] at h
    subst h; rfl
  | cons t ts ih =>
    simp only [List.mapM_cons, Option.pure_def, Option.bind_eq_bind, Option.bind_eq_some_iff, Option.some.injEq] at h
    obtain ⟨u, hu, r', hr', rfl⟩ := h
    obtain ⟨c, hc, rfl⟩ := Option.map_eq_some_iff.1 hu
    have := ih hr'
    unfold rowValue at this ⊢
    simp only [List.map_cons, List.sum_cons, this, hc, Option.getD_some]
    congr 2
    cases t.1 <;> simp [sg]

/-- Identified vectors have the same column. -/
theorem columnOf_eq {vecs : List (List Bool)} (hG : symReq = true → IsGroup n syms) (hlen : ∀ v ∈ vecs, v.length = n) (hnd : vecs.Nodup)
    {v w : List Bool} (hv : v ∈ vecs) (hw : w ∈ vecs) (h : Identified symReq syms v w) :
    columnOf symReq syms vecs v = columnOf symReq syms vecs w := by
  have key : ∀ v ∈ vecs, vecs[vecs.idxOf v]? = some v ∧ vecs.idxOf? v = some (vecs.idxOf v) ∧
      vecs.idxOf v < (labels symReq syms vecs).length := by
    intro v hv
    have hi : vecs.idxOf v < vecs.length := List.idxOf_lt_length_iff.2 hv
    refine ⟨by rw [List.getElem?_eq_getElem hi]; simp, ?_, by rw [labels_length]; exact hi⟩
    rw [List.idxOf?_eq_some_iff]
    refine ⟨hi, by simp, ?_⟩
    intro j hj
    have := List.not_of_lt_findIdx (xs := vecs) (p := (· == v)) hj
    simpa using this
  obtain ⟨v1, v2, v3⟩ := key v hv
  obtain ⟨w1, w2, w3⟩ := key w hw
  have := (labels_eq_iff hG hlen hnd v1 w1).2 h
  rw [List.getElem?_eq_getElem v3, List.getElem?_eq_getElem w3, Option.some.injEq] at this
  unfold columnOf npUniqueInv
  rw [v2, w2]
  simp [List.getElem?_eq_getElem v3, List.getElem?_eq_getElem w3, this]

/-- The column of the `c`-th representative is `c`. -/
theorem columnOf_representative {vecs : List (List Bool)} (hnd : vecs.Nodup) {c : Nat} {w : List Bool}
    (hw : (representatives symReq syms vecs)[c]? = some w) : columnOf symReq syms vecs w = some c := by
  obtain ⟨hc, hcw⟩ := List.getElem?_eq_some_iff.1 hw
  have hc' : c < (npUnique (labels symReq syms vecs)).length := by simpa [representatives, npUniquePos] using hc
  simp only [representatives, npUniquePos, List.getElem_map] at hcw
  have hmem : (npUnique (labels symReq syms vecs))[c] ∈ labels symReq syms vecs := mem_npUnique.1 (List.getElem_mem hc')
  have hi := List.idxOf_lt_length_iff.2 hmem
  have hi' := hi
  rw [labels_length] at hi'
  rw [List.getD_eq_getElem _ _ hi'] at hcw
  have hidx : vecs.idxOf? w = some ((labels symReq syms vecs).idxOf (npUnique (labels symReq syms vecs))[c]) := by
    rw [List.idxOf?_eq_some_iff]
    refine ⟨hi', by simp [hcw], ?_⟩
    intro j hj
    have hj' : j < vecs.length := by omega
    have : vecs[j] ≠ w := by
      rw [← hcw]
      intro e
      exact absurd (hnd.getElem_inj_iff.1 e) (by omega)
    simpa using this
  unfold columnOf npUniqueInv
  rw [hidx]
  simp only [Option.bind_some, List.getElem?_map, List.getElem?_eq_getElem hi, Option.map_some, List.getElem_idxOf, Option.some.injEq]
  exact (npUnique_nodup _).idxOf_getElem _ hc'

section
variable (n gs adj symReq syms)

/-- The value a solution gives to an event in Collins-Gisin form. -/
def Q (x : Nat → K) (l : List Nat) : K := x ((columnOf symReq syms (rawMonomials n gs adj) (boolKey n l)).getD 0)

/-- The behaviour defined by a solution. -/
noncomputable def behaviour (x : Nat → K) (v : List Bool) : K :=
  open Classical in
  if ∃ e, IsEvent (blocksOf gs) adj e ∧ v = boolKey n e then T (flagBlocks gs false) (Q n adj gs syms symReq x) (flatnonzero v) else 0
end

theorem Q_perm (x : Nat → K) : PermInv (Q n adj gs syms symReq x) := by
  intro u v huv
  unfold Q
  rw [boolKey_perm huv]

theorem behaviour_eq (h : BlocksOk n (blocksOf gs)) (x : Nat → K) {e : List Nat} (he : IsEvent (blocksOf gs) adj e) :
    behaviour n adj gs syms symReq x (boolKey n e) = T (flagBlocks gs false) (Q n adj gs syms symReq x) e := by
  unfold behaviour
  rw [if_pos ⟨e, he, rfl⟩]
  apply T_perm (Q_perm x)
  rw [List.perm_ext_iff_of_nodup (List.Pairwise.imp (fun h => Nat.ne_of_lt h) (flatnonzero_sorted _)) (h.event_nodup he)]
  intro y
  rw [mem_flatnonzero_boolKey]
  exact ⟨fun hy => hy.2, fun hy => ⟨(h.isEvent_iff.1 he).1 y hy, hy⟩⟩

theorem raw_length (h : BlocksOk n (blocksOf gs)) (hs : ∀ a b, adj a b = adj b a) : ∀ v ∈ rawMonomials n gs adj, v.length = n := by
  intro v hv
  obtain ⟨e, _, _, rfl⟩ := (mem_rawMonomials h hs v).1 hv
  exact boolKey_length n e

theorem Q_act (h : BlocksOk n (blocksOf gs)) (hs : ∀ a b, adj a b = adj b a) (hG : symReq = true → IsGroup n syms)
    (hR : symReq = true → Relabels gs adj syms) (hsym : symReq = true) (x : Nat → K) {r : List Nat} (hr : r ∈ syms) {e : List Nat}
    (he : IsEvent (blocksOf gs) adj e) (hcg : CG gs e) :
    Q n adj gs syms symReq x (e.map (act r)) = Q n adj gs syms symReq x e := by
  unfold Q
  have hlt := (h.isEvent_iff.1 he).1
  rw [columnOf_eq hG (raw_length h hs) (nodup_rawMonomials h)
    ((mem_rawMonomials h hs _).2 ⟨_, event_act h (hG hsym) (hR hsym) hr he, cg_act h (hG hsym) (hR hsym) hr hlt hcg, rfl⟩)
    ((mem_rawMonomials h hs _).2 ⟨e, he, hcg, rfl⟩)]
  unfold Identified
  rw [if_pos hsym]
  exact ⟨r, hr, image_map (hG hsym) hr hlt⟩

/-- The equalities say that eliminating the last outcomes of the parties with children changes nothing. -/
theorem Q_eq_T (h : BlocksOk n (blocksOf gs)) (hs : ∀ a b, adj a b = adj b a) (hG : symReq = true → IsGroup n syms)
    (hR : symReq = true → Relabels gs adj syms) {x : Nat → K} {rows : List (List (Int × Nat))}
    (hrows : equalities n gs adj symReq syms = some rows) (hx : ∀ row ∈ rows, rowValue x row = 0)
    {e : List Nat} (he : IsEvent (blocksOf gs) adj e) (hcg : CG gs e) :
    T (flagBlocks gs true) (Q n adj gs syms symReq x) e = Q n adj gs syms symReq x e := by
  have hsub := flagBlocks_sublist gs true
  -- for representatives
  have hrep : ∀ e, IsEvent (blocksOf gs) adj e → CG gs e → boolKey n e ∈ representatives symReq syms (rawMonomials n gs adj) →
      T (flagBlocks gs true) (Q n adj gs syms symReq x) e = Q n adj gs syms symReq x e := by
    intro e he hcg hmem
    by_cases hc : critBlocks (flagBlocks gs true) e = []
    · exact T_of_no_crit hc _
    · obtain ⟨row, hrow, hf⟩ := mapM_mem hrows (a := boolKey n e) (List.mem_filter.2 ⟨hmem, by
        rw [flagged_eq, critical_any h hsub]; exact hc⟩)
      rw [flagged_eq, terms_eq h hsub (fun b hb => (critBlocks_sublist _ e).subset hb) hc (crit_eq h hsub), Option.bind_some] at hf
      have hv := toRow_inv hf x
      rw [hx row hrow, List.map_append, List.sum_append, List.map_map] at hv
      simp only [List.map_cons, List.map_nil, List.sum_cons, List.sum_nil, add_zero, sg, if_true, neg_mul, one_mul] at hv
      have hv2 := add_neg_eq_zero.1 hv.symm
      exact hv2
  obtain ⟨c, w, _, hw, _, hid⟩ := columnOf_spec hG (raw_length h hs) (nodup_rawMonomials h) ((mem_rawMonomials h hs _).2 ⟨e, he, hcg, rfl⟩)
  have hwm := List.mem_of_getElem? hw
  unfold Identified at hid
  by_cases hsym : symReq = true
  · rw [if_pos hsym] at hid
    obtain ⟨r, hr, hrw⟩ := hid
    have hlt := (h.isEvent_iff.1 he).1
    obtain ⟨u, hu, himg, _⟩ := image_eq_boolKey (hG hsym) hr hlt
    have hwe : w = boolKey n (e.map (act u)) := by rw [← hrw, himg]
    have he' := event_act h (hG hsym) (hR hsym) hu he
    have hcg' := cg_act h (hG hsym) (hR hsym) hu hlt hcg
    have h1 := hrep _ he' hcg' (hwe ▸ hwm)
    rw [Q_act h hs hG hR hsym x hu he hcg] at h1
    rw [← h1]
    symm
    refine T_act h (hG hsym) (hR hsym) hu true (Q_perm x) hlt ?_
    intro y hy
    obtain ⟨h3, h4⟩ := combos_event h hs hsub he hy
    exact Q_act h hs hG hR hsym x hu h3 (cg_of_nonadjusting h hcg h4)
  · rw [if_neg hsym] at hid
    exact hrep e he hcg (hid ▸ hwm)

theorem mem_flag {b : List Nat} (hb : b ∈ blocksOf gs) : b ∈ flagBlocks gs false ∨ b ∈ flagBlocks gs true := by
  obtain ⟨g, hg, rfl⟩ := List.mem_map.1 hb
  cases hgf : g.1
  · left; exact List.mem_map.2 ⟨g, List.mem_filter.2 ⟨hg, by simp [hgf]⟩, rfl⟩
  · right; exact List.mem_map.2 ⟨g, List.mem_filter.2 ⟨hg, by simp [hgf]⟩, rfl⟩

/-- **C28, converse (marginals).** Any solution of the equalities comes from a behaviour. -/
theorem behaviour_marginalises (h : BlocksOk n (blocksOf gs)) (hs : ∀ a b, adj a b = adj b a) (hG : symReq = true → IsGroup n syms)
    (hR : symReq = true → Relabels gs adj syms) {x : Nat → K} {rows : List (List (Int × Nat))}
    (hrows : equalities n gs adj symReq syms = some rows) (hx : ∀ row ∈ rows, rowValue x row = 0) :
    Marginalises n (blocksOf gs) adj (behaviour n adj gs syms symReq x) := by
  intro b e hb hev
  obtain ⟨r0, hr0⟩ := List.exists_mem_of_ne_nil _ (h.nonempty b hb)
  have he : IsEvent (blocksOf gs) adj e := h.isEvent_sublist (List.sublist_cons_self _ _) (hev r0 hr0)
  rw [behaviour_eq h x he]
  have e1 : (b.map fun r => behaviour n adj gs syms symReq x (boolKey n (r :: e))) =
      b.map fun r => T (flagBlocks gs false) (Q n adj gs syms symReq x) (r :: e) := by
    apply List.map_congr_left
    intro r hr
    exact behaviour_eq h x (hev r hr)
  rw [e1]
  have hsubf := flagBlocks_sublist gs false
  have hsubt := flagBlocks_sublist gs true
  rcases mem_flag hb with hbf | hbt
  · exact T_marginal h hsubf (Q_perm x) hbf hev
  · have hnb : b ∉ flagBlocks gs false := fun hbf => flagBlocks_disjoint h hbf hbt hr0 hr0
    rw [T_marginal_other h hsubf _ hb hnb]
    unfold T
    apply val_congr_mem
    intro y hy
    -- completed events
    have hcomp : ∀ r ∈ b, IsEvent (blocksOf gs) adj (r :: (absent (flagBlocks gs false) e ++ y.2)) ∧
        CG gs (r :: (absent (flagBlocks gs false) e ++ y.2)) := by
      intro r hr
      obtain ⟨h3, h4⟩ := critBlocks_cons_other h hsubf hb hr (.inl hnb) e
      have hy' : y ∈ combos (critBlocks (flagBlocks gs false) (r :: e)) := by rw [h3]; exact hy
      obtain ⟨h5, h6⟩ := combos_event h hs hsubf (hev r hr) hy'
      have h7 := cg_of_absent (e := r :: e) h h6
      rw [h4] at h5 h7
      exact ⟨h5, h7⟩
    have hev' : IsEvent (blocksOf gs) adj (absent (flagBlocks gs false) e ++ y.2) :=
      h.isEvent_sublist (List.sublist_cons_self _ _) (hcomp r0 hr0).1
    have hcg' : CG gs (absent (flagBlocks gs false) e ++ y.2) := by
      intro c hc hmem
      exact (hcomp r0 hr0).2 c hc (List.mem_cons_of_mem _ hmem)
    rw [← Q_eq_T h hs hG hR hrows hx hev' hcg', ← T_marginal h hsubt (Q_perm x) hbt (fun r hr => (hcomp r hr).1)]
    refine congrArg List.sum (List.map_congr_left ?_)
    intro r hr
    exact (Q_eq_T h hs hG hR hrows hx (hcomp r hr).1 (hcomp r hr).2).symm

theorem behaviour_act (h : BlocksOk n (blocksOf gs)) (hs : ∀ a b, adj a b = adj b a) (hG : symReq = true → IsGroup n syms)
    (hR : symReq = true → Relabels gs adj syms) (hsym : symReq = true) (x : Nat → K) {r : List Nat} (hr : r ∈ syms) {e : List Nat}
    (he : IsEvent (blocksOf gs) adj e) :
    behaviour n adj gs syms symReq x (boolKey n (e.map (act r))) = behaviour n adj gs syms symReq x (boolKey n e) := by
  rw [behaviour_eq h x he, behaviour_eq h x (event_act h (hG hsym) (hR hsym) hr he)]
  refine T_act h (hG hsym) (hR hsym) hr false (Q_perm x) (h.isEvent_iff.1 he).1 ?_
  intro y hy
  obtain ⟨h3, h4⟩ := combos_event h hs (flagBlocks_sublist gs false) he hy
  exact Q_act h hs hG hR hsym x hr h3 (cg_of_absent h h4)

theorem behaviour_invariant (h : BlocksOk n (blocksOf gs)) (hs : ∀ a b, adj a b = adj b a) (hG : symReq = true → IsGroup n syms)
    (hR : symReq = true → Relabels gs adj syms) (hsym : symReq = true) (x : Nat → K) :
    Invariant n syms (behaviour n adj gs syms symReq x) := by
  have hgo : ∀ e, IsEvent (blocksOf gs) adj e → ∀ w, SameOrbit syms (boolKey n e) w →
      (∃ e', IsEvent (blocksOf gs) adj e' ∧ w = boolKey n e') ∧
      behaviour n adj gs syms symReq x (boolKey n e) = behaviour n adj gs syms symReq x w := by
    rintro e he w ⟨r, hr, rfl⟩
    obtain ⟨u, hu, himg, _⟩ := image_eq_boolKey (hG hsym) hr (h.isEvent_iff.1 he).1
    refine ⟨⟨_, event_act h (hG hsym) (hR hsym) hu he, himg⟩, ?_⟩
    rw [himg, behaviour_act h hs hG hR hsym x hu he]
  intro v w hv hvw
  by_cases hev : ∃ e, IsEvent (blocksOf gs) adj e ∧ v = boolKey n e
  · obtain ⟨e, he, rfl⟩ := hev
    exact (hgo e he w hvw).2
  · have hw : ¬ ∃ e, IsEvent (blocksOf gs) adj e ∧ w = boolKey n e := by
      rintro ⟨e, he, rfl⟩
      exact hev (hgo e he v (sameOrbit_symm (hG hsym) hv hvw)).1
    unfold behaviour
    rw [if_neg hev, if_neg hw]

theorem behaviour_nonneg [PartialOrder K] [IsOrderedRing K] (hne : gs ≠ []) (h : BlocksOk n (blocksOf gs)) (hs : ∀ a b, adj a b = adj b a)
    (hG : symReq = true → IsGroup n syms) (hR : symReq = true → Relabels gs adj syms) {x : Nat → K} {rows rows' : List (List (Int × Nat))}
    (hrows : equalities n gs adj symReq syms = some rows) (hx : ∀ row ∈ rows, rowValue x row = 0)
    (hrows' : inequalities n gs adj symReq syms = some rows') (hx' : ∀ row ∈ rows', 0 ≤ rowValue x row) :
    Nonneg n (blocksOf gs) adj (behaviour n adj gs syms symReq x) := by
  have hsub := flagBlocks_sublist gs false
  have hrep : ∀ e, IsGlobalEvent (blocksOf gs) adj e → boolKey n e ∈ representatives symReq syms (maximalEvents n gs adj) →
      0 ≤ behaviour n adj gs syms symReq x (boolKey n e) := by
    intro e he hmem
    rw [behaviour_eq h x he.event]
    obtain ⟨row, hrow, hf⟩ := mapM_mem hrows' hmem
    have hpos := hx' row hrow
    unfold inequalityRow at hf
    rw [flagged_eq] at hf
    split at hf
    · rename_i hcr
      rw [critical_any h hsub] at hcr
      rw [terms_eq h hsub (fun b hb => (critBlocks_sublist _ e).subset hb) hcr (crit_eq h hsub), Option.bind_some] at hf
      rw [toRow_inv hf x, List.map_map] at hpos
      exact hpos
    · rename_i hcr
      rw [critical_any h hsub, not_not] at hcr
      rw [toRow_inv hf x] at hpos
      rw [T_of_no_crit hcr]
      simpa [sg, Q] using hpos
  have hglob : ∀ e, IsGlobalEvent (blocksOf gs) adj e → 0 ≤ behaviour n adj gs syms symReq x (boolKey n e) := by
    intro e he
    obtain ⟨c, w, _, hw, hwmax, hid⟩ := columnOf_spec hG (fun v hv => by
      obtain ⟨e, _, rfl⟩ := (mem_maximalEvents hne h hs v).1 hv
      exact boolKey_length n e) (nodup_maximalEvents hne h hs) ((mem_maximalEvents hne h hs _).2 ⟨e, he, rfl⟩)
    obtain ⟨e', he', rfl⟩ := (mem_maximalEvents hne h hs _).1 hwmax
    rw [hid.eq (fun hsym => behaviour_invariant h hs hG hR hsym x) (boolKey_length n e)]
    exact hrep e' he' (List.mem_of_getElem? hw)
  have hmarg := behaviour_marginalises h hs hG hR hrows hx
  -- extend to a global event
  have hlen : ∀ e, IsEvent (blocksOf gs) adj e → e.length ≤ n := by
    intro e he
    have hsp : e.Subperm (List.range n) := List.subperm_of_subset (h.event_nodup he) fun r hr =>
      List.mem_range.2 ((h.isEvent_iff.1 he).1 r hr)
    simpa using hsp.length_le
  have hmain : ∀ k e, IsEvent (blocksOf gs) adj e → n - e.length ≤ k → 0 ≤ behaviour n adj gs syms symReq x (boolKey n e) := by
    intro k
    induction k with
    | zero =>
      intro e he hk
      refine hglob e ⟨he, ?_⟩
      intro i b hb r hr hev
      have := hlen _ hev
      simp only [List.length_cons] at this
      omega
    | succ k ih =>
      intro e he hk
      by_cases hg : IsGlobalEvent (blocksOf gs) adj e
      · exact hglob e hg
      · have hex : ∃ (i : Nat) (b : List Nat), (blocksOf gs)[i]? = some b ∧ ∃ r ∈ b, IsEvent (blocksOf gs) adj (r :: e) := by
          by_contra hcon
          push Not at hcon
          exact hg ⟨he, fun i b hb r hr hev => hcon i b hb r hr hev⟩
        obtain ⟨i, b, hb, r, hr, hev⟩ := hex
        have hbm := List.mem_of_getElem? hb
        have hall : ∀ s ∈ b, IsEvent (blocksOf gs) adj (s :: e) := by
          intro s hs'
          refine h.isEvent_of_map ?_ ?_ hev
          · intro y hy
            rcases List.mem_cons.1 hy with rfl | hy
            · exact h.lt hbm hs'
            · exact (h.isEvent_iff.1 he).1 y hy
          · simp [h.blockIdx_eq hb hs', h.blockIdx_eq hb hr]
        rw [← hmarg b e hbm hall]
        apply List.sum_nonneg
        intro y hy
        obtain ⟨s, hs', rfl⟩ := List.mem_map.1 hy
        refine ih _ (hall s hs') ?_
        have := hlen _ (hall s hs')
        simp only [List.length_cons] at this ⊢
        omega
  intro e he
  exact hmain _ e he (Nat.le_refl _)

/-- **C28, converse.** The generated constraints are not missing anything: every assignment of values to the columns that
satisfies all equalities and inequalities is given by a non-negative behaviour over all joint events of compatible
measurements, invariant under the symmetries. -/
theorem C28_no_spurious_solutions [PartialOrder K] [IsOrderedRing K] (gs : Groups) (hne : gs ≠ []) (h : BlocksOk n (blocksOf gs))
    (hs : ∀ a b, adj a b = adj b a) (symReq : Bool) (syms : List (List Nat))
    (hG : symReq = true → IsGroup n syms) (hR : symReq = true → Relabels gs adj syms) (x : Nat → K)
    (eqs ineqs : List (List (Int × Nat))) (heqs : equalities n gs adj symReq syms = some eqs)
    (hineqs : inequalities n gs adj symReq syms = some ineqs)
    (hx : ∀ row ∈ eqs, rowValue x row = 0) (hx' : ∀ row ∈ ineqs, 0 ≤ rowValue x row) :
    ∃ p : List Bool → K, Marginalises n (blocksOf gs) adj p ∧ Nonneg n (blocksOf gs) adj p ∧
      (symReq = true → Invariant n syms p) ∧
      ∀ c, c < (representatives symReq syms (rawMonomials n gs adj)).length → columnValue n gs adj symReq syms p c = x c := by
  refine ⟨behaviour n adj gs syms symReq x, behaviour_marginalises h hs hG hR heqs hx,
    behaviour_nonneg hne h hs hG hR heqs hx hineqs hx', fun hsym => behaviour_invariant h hs hG hR hsym x, ?_⟩
  intro c hc
  unfold columnValue
  have hw := List.getElem?_eq_getElem hc
  rw [List.getD_eq_getElem _ _ hc]
  obtain ⟨e, he, hcg, hke⟩ := (mem_rawMonomials h hs _).1 (representatives_mem (List.getElem_mem hc))
  rw [hke, behaviour_eq h x he]
  have hcr : critBlocks (flagBlocks gs false) e = [] := by
    unfold critBlocks
    rw [List.filter_eq_nil_iff]
    intro b hb
    simpa using hcg b hb
  rw [T_of_no_crit hcr]
  unfold Q
  rw [← hke, columnOf_representative (nodup_rawMonomials h) hw]
  rfl

end Verif.CollinsGisin
