import Verif.CollinsGisin.Transform
/-! Symmetries acting on events. -/
namespace Verif.CollinsGisin
open Verif.Orbits

variable {n : Nat} {adj : Nat → Nat → Bool} {gs : Groups} {syms : List (List Nat)}

/-- Action of a row on outcomes. -/
abbrev act (r : List Nat) (k : Nat) : Nat := r.getD k 0

theorem act_lt (hG : IsGroup n syms) {r : List Nat} (hr : r ∈ syms) {k : Nat} (hk : k < n) : act r k < n := by
  have hl := hG.row_length hr
  unfold act
  rw [List.getD_eq_getElem _ _ (by omega)]
  exact hG.row_lt hr (List.getElem_mem _)

theorem act_inj (hG : IsGroup n syms) {r : List Nat} (hr : r ∈ syms) {k l : Nat} (hk : k < n) (hl : l < n) (h : act r k = act r l) : k = l := by
  have hlen := hG.row_length hr
  unfold act at h
  rw [List.getD_eq_getElem _ _ (by omega), List.getD_eq_getElem _ _ (by omega)] at h
  have hnd : r.Nodup := (hG.perm r hr).nodup_iff.2 List.nodup_range
  exact hnd.getElem_inj_iff.1 h

/-- Reading a relabelled event back. -/
theorem image_map (hG : IsGroup n syms) {r : List Nat} (hr : r ∈ syms) {e : List Nat} (he : ∀ x ∈ e, x < n) :
    image (boolKey n (e.map (act r))) r = boolKey n e := by
  have hlen := hG.row_length hr
  apply List.ext_getElem (by simp [image, boolKey_length, hlen])
  intro k h1 h2
  have hk : k < n := by rwa [boolKey_length] at h2
  have hkr : k < r.length := by omega
  have hrk : r[k] < n := hG.row_lt hr (List.getElem_mem hkr)
  simp only [image, List.getElem_map, boolKey, List.getElem_range]
  rw [List.getD_eq_getElem _ _ (by simpa using hrk)]
  simp only [List.getElem_map, List.getElem_range]
  rw [Bool.eq_iff_iff]
  simp only [List.contains_iff_mem, List.mem_map]
  have hact : act r k = r[k] := by unfold act; rw [List.getD_eq_getElem _ _ hkr]
  constructor
  · rintro ⟨x, hx, hxr⟩
    rw [← hact] at hxr
    rw [← act_inj hG hr (he x hx) hk hxr]
    exact hx
  · intro hx
    exact ⟨k, hx, hact⟩

/-- A row and its inverse. -/
theorem act_inverse (hG : IsGroup n syms) {r : List Nat} (hr : r ∈ syms) :
    ∃ u ∈ syms, ∀ k, k < n → act u (act r k) = k ∧ act r (act u k) = k := by
  obtain ⟨u, hu, hur⟩ := hG.inv r hr
  have hlen := hG.row_length hr
  have key : ∀ k, k < n → act u (act r k) = k := by
    intro k hk
    have := congrArg (fun l => l[k]?) hur
    simp only [List.getElem?_map, List.getElem?_range hk, List.getElem?_eq_getElem (show k < r.length by omega), Option.map_some,
      Option.some.injEq] at this
    unfold act
    rw [List.getD_eq_getElem r _ (show k < r.length by omega)]
    exact this
  refine ⟨u, hu, fun k hk => ⟨key k hk, ?_⟩⟩
  have h1 := key (act u k) (act_lt hG hu hk)
  -- act u (act r (act u k)) = act u k
  exact act_inj hG hu (act_lt hG hr (act_lt hG hu hk)) hk h1

/-- Symmetric vectors are relabelled events. -/
theorem image_eq_boolKey (hG : IsGroup n syms) {r : List Nat} (hr : r ∈ syms) {e : List Nat} (he : ∀ x ∈ e, x < n) :
    ∃ u ∈ syms, image (boolKey n e) r = boolKey n (e.map (act u)) ∧ (∀ x, x < n → act r (act u x) = x ∧ act u (act r x) = x) := by
  obtain ⟨u, hu, hur⟩ := act_inverse hG hr
  refine ⟨u, hu, ?_, fun x hx => ⟨(hur x hx).2, (hur x hx).1⟩⟩
  have h1 := image_map hG hr (e := e.map (act u)) (by
    intro x hx
    obtain ⟨y, hy, rfl⟩ := List.mem_map.1 hx
    exact act_lt hG hu (he y hy))
  rw [← h1, List.map_map]
  congr 2
  symm
  conv_rhs => rw [← List.map_id e]
  apply List.map_congr_left
  intro x hx
  exact (hur x (he x hx)).2

theorem getLastD_map_act {b : List Nat} (hb : b ≠ []) (r : List Nat) : (b.map (act r)).getLastD 0 = act r (b.getLastD 0) := by
  rw [List.getLastD_eq_getLast?, List.getLast?_map, List.getLastD_eq_getLast?, List.getLast?_eq_some_getLast hb]
  rfl

theorem flagBlocks_act (hR : Relabels gs adj syms) {r : List Nat} (hr : r ∈ syms) {flag : Bool} {b : List Nat} (hb : b ∈ flagBlocks gs flag) :
    b.map (act r) ∈ flagBlocks gs flag := by
  obtain ⟨g, hg, rfl⟩ := List.mem_map.1 hb
  simp only [List.mem_filter, beq_iff_eq] at hg
  refine List.mem_map.2 ⟨(g.1, g.2.map (act r)), ?_, rfl⟩
  simp only [List.mem_filter, beq_iff_eq]
  exact ⟨hR.block r hr g hg.1, hg.2⟩

theorem block_act_lt (h : BlocksOk n (blocksOf gs)) {flag : Bool} {b : List Nat} (hb : b ∈ flagBlocks gs flag) : ∀ x ∈ b, x < n :=
  fun _ hx => h.lt ((flagBlocks_sublist gs flag).subset hb) hx

theorem blocksOf_act (hR : Relabels gs adj syms) {r : List Nat} (hr : r ∈ syms) {b : List Nat} (hb : b ∈ blocksOf gs) :
    b.map (act r) ∈ blocksOf gs := by
  obtain ⟨g, hg, rfl⟩ := List.mem_map.1 hb
  exact List.mem_map.2 ⟨_, hR.block r hr g hg, rfl⟩

/-- Relabelling preserves events. -/
theorem event_act (h : BlocksOk n (blocksOf gs)) (hG : IsGroup n syms) (hR : Relabels gs adj syms) {r : List Nat} (hr : r ∈ syms)
    {e : List Nat} (he : IsEvent (blocksOf gs) adj e) : IsEvent (blocksOf gs) adj (e.map (act r)) := by
  refine ⟨?_, ?_⟩
  · intro x hx
    obtain ⟨y, hy, rfl⟩ := List.mem_map.1 hx
    obtain ⟨b, hb, hyb⟩ := he.ops y hy
    exact ⟨_, blocksOf_act hR hr hb, List.mem_map.2 ⟨y, hyb, rfl⟩⟩
  · rw [List.pairwise_map]
    refine List.Pairwise.imp_of_mem ?_ he.compat
    intro x y hx hy hxy i' j' bi' bj' hi' hj' hxi hyj
    obtain ⟨b, hb, hxb⟩ := he.ops x hx
    obtain ⟨c, hc, hyc⟩ := he.ops y hy
    obtain ⟨i, hi⟩ := List.getElem?_of_mem hb
    obtain ⟨j, hj⟩ := List.getElem?_of_mem hc
    have hkey := hxy i j b c hi hj hxb hyc
    simp only [blocksOf, List.getElem?_map, Option.map_eq_some_iff] at hi hj
    obtain ⟨g, hg, rfl⟩ := hi
    obtain ⟨k, hk, rfl⟩ := hj
    obtain ⟨i2, hi2⟩ := List.getElem?_of_mem (hR.block r hr g (List.mem_of_getElem? hg))
    obtain ⟨j2, hj2⟩ := List.getElem?_of_mem (hR.block r hr k (List.mem_of_getElem? hk))
    have e1 : i' = i2 := h.idx_unique hi' (show (blocksOf gs)[i2]? = some (g.2.map (act r)) by simp [blocksOf, hi2]) hxi
      (List.mem_map.2 ⟨x, hxb, rfl⟩)
    have e2 : j' = j2 := h.idx_unique hj' (show (blocksOf gs)[j2]? = some (k.2.map (act r)) by simp [blocksOf, hj2]) hyj
      (List.mem_map.2 ⟨y, hyc, rfl⟩)
    subst e1; subst e2
    have hadj := hR.compat r hr i j i' j' g k hg hk hi2 hj2
    refine ⟨?_, by rw [hadj]; exact hkey.2⟩
    rintro rfl
    rw [hi2] at hj2
    simp only [Option.some.injEq, Prod.mk.injEq] at hj2
    have hxm : act r x ∈ k.2.map (act r) := by rw [← hj2.2]; exact List.mem_map.2 ⟨x, hxb, rfl⟩
    obtain ⟨z, hz, hzx⟩ := List.mem_map.1 hxm
    have hzx' := act_inj hG hr (h.lt hc hz) (h.lt hb hxb) hzx
    subst hzx'
    exact hkey.1 (h.idx_unique (show (blocksOf gs)[i]? = some g.2 by simp [blocksOf, hg])
      (show (blocksOf gs)[j]? = some k.2 by simp [blocksOf, hk]) hxb hz)

theorem mem_map_act (hG : IsGroup n syms) {r : List Nat} (hr : r ∈ syms) {e : List Nat} (he : ∀ x ∈ e, x < n) {x : Nat} (hx : x < n) :
    act r x ∈ e.map (act r) ↔ x ∈ e := by
  constructor
  · intro h
    obtain ⟨y, hy, hyx⟩ := List.mem_map.1 h
    rw [← act_inj hG hr (he y hy) hx hyx]; exact hy
  · intro h; exact List.mem_map.2 ⟨x, h, rfl⟩

/-- A symmetry permutes the measurements of each kind. -/
theorem flagBlocks_act_perm (h : BlocksOk n (blocksOf gs)) (hG : IsGroup n syms) (hR : Relabels gs adj syms) {r : List Nat} (hr : r ∈ syms) (flag : Bool) :
    ((flagBlocks gs flag).map fun b => b.map (act r)).Perm (flagBlocks gs flag) := by
  have hnd : (flagBlocks gs flag).Nodup := List.Nodup.sublist (flagBlocks_sublist gs flag) (blocks_nodup h)
  have hnd' : ((flagBlocks gs flag).map fun b => b.map (act r)).Nodup := by
    refine List.Nodup.map_on ?_ hnd
    intro b hb c hc hbc
    have hl : b.length = c.length := by simpa using congrArg List.length hbc
    apply List.ext_getElem hl
    intro k h1 h2
    have := congrArg (fun l => l[k]?) hbc
    simp only [List.getElem?_map, List.getElem?_eq_getElem h1, List.getElem?_eq_getElem h2, Option.map_some, Option.some.injEq] at this
    exact act_inj hG hr (block_act_lt h hb _ (List.getElem_mem h1)) (block_act_lt h hc _ (List.getElem_mem h2)) this
  have hsp : ((flagBlocks gs flag).map fun b => b.map (act r)).Subperm (flagBlocks gs flag) := by
    refine List.subperm_of_subset hnd' ?_
    intro b hb
    obtain ⟨c, hc, rfl⟩ := List.mem_map.1 hb
    exact flagBlocks_act hR hr hc
  exact hsp.perm_of_length_le (by simp)

theorem critBlocks_act (h : BlocksOk n (blocksOf gs)) (hG : IsGroup n syms) (hR : Relabels gs adj syms) {r : List Nat} (hr : r ∈ syms) (flag : Bool)
    {e : List Nat} (he : ∀ x ∈ e, x < n) :
    (critBlocks (flagBlocks gs flag) (e.map (act r))).Perm ((critBlocks (flagBlocks gs flag) e).map fun b => b.map (act r)) := by
  unfold critBlocks
  refine ((flagBlocks_act_perm h hG hR hr flag).filter _).symm.trans ?_
  rw [List.filter_map]
  apply List.Perm.of_eq
  congr 1
  apply List.filter_congr
  intro b hb
  have hbm := (flagBlocks_sublist gs flag).subset hb
  have hne := h.nonempty b hbm
  simp only [Function.comp]
  rw [getLastD_map_act hne, Bool.eq_iff_iff]
  simp only [List.contains_iff_mem]
  exact mem_map_act hG hr he (h.lt hbm (last_mem hne))

theorem absent_act (h : BlocksOk n (blocksOf gs)) (hG : IsGroup n syms) (hR : Relabels gs adj syms) {r : List Nat} (hr : r ∈ syms) (flag : Bool)
    {e : List Nat} (he : ∀ x ∈ e, x < n) :
    absent (flagBlocks gs flag) (e.map (act r)) = (absent (flagBlocks gs flag) e).map (act r) := by
  unfold absent
  rw [List.filter_map]
  congr 1
  apply List.filter_congr
  intro x hx
  simp only [Function.comp]
  congr 1
  rw [Bool.eq_iff_iff]
  simp only [List.contains_iff_mem]
  have key : (lasts (flagBlocks gs flag)).map (act r) = lasts ((flagBlocks gs flag).map fun b => b.map (act r)) := by
    unfold lasts
    rw [List.map_map, List.map_map]
    apply List.map_congr_left
    intro b hb
    exact (getLastD_map_act (h.nonempty b ((flagBlocks_sublist gs flag).subset hb)) r).symm
  have hlt := lasts_lt h (bs := flagBlocks gs flag) fun b hb => (flagBlocks_sublist gs flag).subset hb
  rw [← mem_map_act hG hr hlt (he x hx), key]
  exact (((flagBlocks_act_perm h hG hR hr flag).map fun b => b.getLastD 0).mem_iff).symm

theorem alt_map (b : List Nat) (r : List Nat) : alt (b.map (act r)) = (alt b).map fun x => (x.1, x.2.map (act r)) := by
  unfold alt
  rw [← List.map_dropLast]
  simp [List.map_map, Function.comp_def]

theorem combos_map (bs : List (List Nat)) (r : List Nat) :
    combos (bs.map fun b => b.map (act r)) = (combos bs).map fun x => (x.1, x.2.map (act r)) := by
  induction bs using List.reverseRecOn with
  | nil => simp [combos]
  | append_singleton bs b ih =>
    have hcombo : ∀ (bs : List (List Nat)) b, combos (bs ++ [b]) = combine (combos bs) (alt b) := by
      intro bs b; simp [combos, List.foldl_append]
    rw [List.map_append, List.map_cons, List.map_nil, hcombo, hcombo, ih, alt_map]
    unfold combine
    rw [List.flatMap_map, List.map_flatMap]
    congr 1
    funext x
    simp [List.map_map, Function.comp_def]

/-- The transform of an invariant function is invariant. -/
theorem T_act {K : Type} [CommRing K] (h : BlocksOk n (blocksOf gs)) (hG : IsGroup n syms) (hR : Relabels gs adj syms) {r : List Nat} (hr : r ∈ syms) (flag : Bool)
    {F : List Nat → K} (hF : PermInv F) {e : List Nat} (he : ∀ x ∈ e, x < n)
    (hinv : ∀ x ∈ combos (critBlocks (flagBlocks gs flag) e), F ((absent (flagBlocks gs flag) e ++ x.2).map (act r)) =
      F (absent (flagBlocks gs flag) e ++ x.2)) :
    T (flagBlocks gs flag) F (e.map (act r)) = T (flagBlocks gs flag) F e := by
  unfold T
  rw [val_combos_perm (critBlocks_act h hG hR hr flag he) fun u v huv => hF _ _ (huv.append_left _), combos_map,
    absent_act h hG hR hr flag he]
  unfold val
  rw [List.map_map]
  congr 1
  apply List.map_congr_left
  intro x hx
  simp only [Function.comp]
  rw [← List.map_append, hinv x hx]

theorem cg_act (h : BlocksOk n (blocksOf gs)) (hG : IsGroup n syms) (hR : Relabels gs adj syms) {r : List Nat} (hr : r ∈ syms) {e : List Nat}
    (he : ∀ x ∈ e, x < n) (hcg : CG gs e) : CG gs (e.map (act r)) := by
  intro b hb hmem
  obtain ⟨c, hc, rfl⟩ := List.mem_map.1 ((flagBlocks_act_perm h hG hR hr false).mem_iff.2 hb)
  have hcb := (flagBlocks_sublist gs false).subset hc
  have hne := h.nonempty c hcb
  rw [getLastD_map_act hne, mem_map_act hG hr he (h.lt hcb (last_mem hne))] at hmem
  exact hcg c hc hmem

end Verif.CollinsGisin
