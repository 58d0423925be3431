import Verif.Names.Ops
/-
C40, operators: names are different and read back.
-/
namespace Verif.Names
open Verif.Scenario Verif.Text Verif.State

variable {S : Scenario} {N : Naming}

theorem get_setDefaults (d : Dict Str Nat) (ns : List Str) (i : Nat) (n : Str) :
    Dict.get (setDefaults d ns i) n = if (Dict.get d n).isSome then Dict.get d n else if n ∈ ns then some i else none := by
  induction ns generalizing d with
  | nil =>
    simp only [setDefaults, List.foldl_nil, List.not_mem_nil, if_false]
    cases Dict.get d n <;> rfl
  | cons m ns ih =>
    have e : setDefaults d (m :: ns) i = setDefaults (if (Dict.get d m).isSome then d else Dict.set d m i) ns i := rfl
    rw [e, ih]
    by_cases hm : (Dict.get d m).isSome = true
    · simp only [hm, if_true, List.mem_cons]
      by_cases hn : (Dict.get d n).isSome = true
      · simp only [hn, if_true]
      · have : ¬ n = m := by rintro rfl; exact hn hm
        simp [hn, this]
    · simp only [hm, if_false, Bool.false_eq_true, get_set, List.mem_cons]
      by_cases hnm : m = n
      · subst hnm
        simp [hm]
      · have : ¬ n = m := fun e => hnm e.symm
        simp [hnm, this]

theorem get_fillNames (rows : List (List Str)) (d : Dict Str Nat) (i : Nat) (n : Str) (hd : Dict.get d n = none) (k : Nat) :
    Dict.get (fillNames d i rows) n = some (i + k) ↔ (∃ r, rows[k]? = some r ∧ n ∈ r) ∧ ∀ k' < k, ∀ r, rows[k']? = some r → n ∉ r := by
  induction rows generalizing d i k with
  | nil => simp [fillNames, hd]
  | cons r rows ih =>
    rw [fillNames]
    have hkeep : ∀ (rows : List (List Str)) (d : Dict Str Nat) (i v : Nat), Dict.get d n = some v → Dict.get (fillNames d i rows) n = some v := by
      intro rows
      induction rows with
      | nil => intro d i v h; exact h
      | cons r rows ih2 =>
        intro d i v h
        rw [fillNames]
        refine ih2 _ _ _ ?_
        rw [get_setDefaults, h]
        rfl
    by_cases hr : n ∈ r
    · have h1 : Dict.get (setDefaults d r i) n = some i := by rw [get_setDefaults, hd]; simp [hr]
      rw [hkeep rows _ (i + 1) i h1]
      constructor
      · intro e
        have : k = 0 := by have := Option.some.inj e; omega
        subst this
        exact ⟨⟨r, rfl, hr⟩, by intro k' hk'; omega⟩
      · rintro ⟨-, h2⟩
        rcases k with _ | k
        · rfl
        · exact absurd hr (h2 0 (by omega) r rfl)
    · have h1 : Dict.get (setDefaults d r i) n = none := by rw [get_setDefaults, hd]; simp [hr]
      rcases k with _ | k
      · constructor
        · intro e
          exfalso
          have hge : ∀ (rows : List (List Str)) (d : Dict Str Nat) (j v : Nat), Dict.get d n = none → Dict.get (fillNames d j rows) n = some v → j ≤ v := by
            intro rows
            induction rows with
            | nil => intro d j v h h'; rw [fillNames, h] at h'; simp at h'
            | cons r rows ih2 =>
              intro d j v h h'
              rw [fillNames] at h'
              by_cases hr : n ∈ r
              · have h2 : Dict.get (setDefaults d r j) n = some j := by rw [get_setDefaults, h]; simp [hr]
                have h3 : ∀ (rows : List (List Str)) (d : Dict Str Nat) (i v : Nat), Dict.get d n = some v → Dict.get (fillNames d i rows) n = some v := by
                  intro rows
                  induction rows with
                  | nil => intro d i v h; exact h
                  | cons r rows ih2 =>
                    intro d i v h
                    rw [fillNames]
                    refine ih2 _ _ _ ?_
                    rw [get_setDefaults, h]
                    rfl
                rw [h3 rows _ _ _ h2] at h'
                have := Option.some.inj h'
                omega
              · have h2 : Dict.get (setDefaults d r j) n = none := by rw [get_setDefaults, h]; simp [hr]
                have := ih2 _ _ _ h2 h'
                omega
          have := hge rows _ _ _ h1 e
          omega
        · rintro ⟨⟨r', h2, h3⟩, -⟩
          simp only [List.getElem?_cons_zero, Option.some.injEq] at h2
          exact absurd (h2 ▸ h3) hr
      · have e : i + (k + 1) = (i + 1) + k := by omega
        rw [e, ih _ _ h1]
        simp only [List.getElem?_cons_succ]
        constructor
        · rintro ⟨h2, h3⟩
          refine ⟨h2, ?_⟩
          intro k' hk' r' hr'
          rcases k' with _ | k'
          · simp only [List.getElem?_cons_zero, Option.some.injEq] at hr'
            exact hr' ▸ hr
          · exact h3 k' (by omega) r' (by simpa using hr')
        · rintro ⟨h2, h3⟩
          exact ⟨h2, fun k' hk' r' hr' => h3 (k' + 1) (by omega) r' (by simpa using hr')⟩

theorem mapM_getElem? {α β : Type} {f : α → Option β} {l : List α} {r : List β} (h : l.mapM f = some r) (k : Nat) : r[k]? = (l[k]?).bind f := by
  induction l generalizing r k with
  | nil =>
    simp only [List.mapM_nil, Option.pure_def, Option.some.injEq] at h
    subst h
    simp
  | cons a l ih =>
    rw [List.mapM_cons] at h
    rcases hb : f a with _ | b
    · rw [hb] at h; simp at h
    rcases hr : l.mapM f with _ | rs
    · rw [hb, hr] at h; simp at h
    rw [hb, hr] at h
    simp only [Option.pure_def, Option.bind_eq_bind, Option.bind_some, Option.some.injEq] at h
    subst h
    cases k with
    | zero => simp [hb]
    | succ k => simpa using ih hr k

theorem mapM_isSome {α β : Type} {f : α → Option β} {l : List α} (h : ∀ a ∈ l, ∃ b, f a = some b) : ∃ r, l.mapM f = some r := by
  induction l with
  | nil => exact ⟨[], rfl⟩
  | cons a l ih =>
    obtain ⟨b, hb⟩ := h a (by simp)
    obtain ⟨r, hr⟩ := ih fun x hx => h x (by simp [hx])
    exact ⟨b :: r, by rw [List.mapM_cons, hb, hr]; rfl⟩

/-- The rows of names of a problem. -/
theorem nameRows_some (hf : Fits S N) : ∃ rows, (S.lexorder.mapM fun op => (interpret S N op).map (allNames S)) = some rows ∧
    ∀ k : Nat, rows[k]? = (S.lexorder[k]?).bind fun op => (interpret S N op).map (allNames S) := by
  obtain ⟨rows, hr⟩ := mapM_isSome (f := fun op => (interpret S N op).map (allNames S)) (l := S.lexorder) (by
    intro op hop
    obtain ⟨i, t, hi, -⟩ := interpret_some hf ((mem_lexorder S).1 hop)
    exact ⟨allNames S i, by simp [hi]⟩)
  exact ⟨rows, hr, mapM_getElem? hr⟩

/-- Position of a name in the table: the first operator that has it among its names. -/
theorem reads_iff (hf : Fits S N) (n : Str) (k : Nat) :
    (∃ d, opFromName S N = some d ∧ Dict.get d n = some k) ↔
      (∃ op i, S.lexorder[k]? = some op ∧ interpret S N op = some i ∧ n ∈ allNames S i) ∧
      ∀ k' < k, ∀ op i, S.lexorder[k']? = some op → interpret S N op = some i → n ∉ allNames S i := by
  obtain ⟨rows, hr, hrow⟩ := nameRows_some hf
  have hd : opFromName S N = some (fillNames [] 0 rows) := by unfold opFromName; rw [hr]; rfl
  rw [hd]
  simp only [Option.some.injEq, exists_eq_left']
  have h0 := get_fillNames rows [] 0 n rfl k
  rw [Nat.zero_add] at h0
  rw [h0]
  constructor
  · rintro ⟨⟨r, h1, h2⟩, h3⟩
    rw [hrow] at h1
    rcases ho : S.lexorder[k]? with _ | op
    · rw [ho] at h1; simp at h1
    · rw [ho] at h1
      simp only [Option.bind_some, Option.map_eq_some_iff] at h1
      obtain ⟨i, hi, rfl⟩ := h1
      refine ⟨⟨op, i, rfl, hi, h2⟩, ?_⟩
      intro k' hk' op' i' ho' hi'
      exact h3 k' hk' _ (by rw [hrow, ho']; simp [hi'])
  · rintro ⟨⟨op, i, ho, hi, hn⟩, h3⟩
    refine ⟨⟨allNames S i, by rw [hrow, ho]; simp [hi], hn⟩, ?_⟩
    intro k' hk' r hr'
    rw [hrow] at hr'
    rcases ho' : S.lexorder[k']? with _ | op'
    · rw [ho'] at hr'; simp at hr'
    · rw [ho'] at hr'
      simp only [Option.bind_some, Option.map_eq_some_iff] at hr'
      obtain ⟨i', hi', rfl⟩ := hr'
      exact h3 k' hk' op' i' ho' hi'

theorem sdp_reads_iff (hf : Fits S N) (n : Str) (hn : n ≠ ['0']) (k : Nat) :
    (∃ d, opFromNameSdp S N = some d ∧ Dict.get d n = some (k + 1)) ↔ (∃ d, opFromName S N = some d ∧ Dict.get d n = some k) := by
  obtain ⟨rows, hr, hrow⟩ := nameRows_some hf
  have hd : opFromName S N = some (fillNames [] 0 rows) := by unfold opFromName; rw [hr]; rfl
  have hd' : opFromNameSdp S N = some (fillNames [(['0'], 0)] 1 rows) := by unfold opFromNameSdp; rw [hr]; rfl
  rw [hd, hd']
  simp only [Option.some.injEq, exists_eq_left']
  have h0 := get_fillNames rows [] 0 n rfl k
  have h1 := get_fillNames rows [(['0'], 0)] 1 n (by rw [get_cons, if_neg (fun e => hn e.symm)]; rfl) k
  rw [Nat.zero_add] at h0
  rw [Nat.add_comm] at h1
  rw [h0, h1]

/-! ### The properties -/

/-- The four kinds of names avoid each other. -/
theorem eq_not_mem_oldName (hav : Avoid N ['_', '^', '=', '∅']) (hf : Fits S N) {a : Op} (ha : Valid S a) {i : Interp} {t : List Nat}
    (hi : InterpOf S N a i t) : '=' ∉ oldName i ∧ '=' ∉ (oldName i).map (fun c => if c = '∅' then '0' else c) := by
  have hn : ∀ n, '=' ∉ natStr n := fun n => not_mem_natStr n _ (by decide)
  have hj : ∀ l, '=' ∉ joinNat '_' l := by
    intro l
    induction l with
    | nil => simp [joinNat]
    | cons a l ih =>
      cases l with
      | nil => exact hn a
      | cons b l =>
        rw [joinNat, List.mem_append, List.mem_cons, not_or, not_or]
        exact ⟨hn a, by decide, ih⟩
  have hp : '=' ∉ i.party := by rw [hi.party]; exact hav _ (name_mem hf ha) _ (by simp)
  have key : ∀ s : Str, '=' ∉ s → '=' ∉ oldWith s i := by
    intro s hs
    unfold oldWith
    simp only [List.mem_append, List.mem_cons, not_or]
    exact ⟨hp, by decide, hj _, by decide, hs, by decide, hn _⟩
  have h1 : '=' ∉ oldName i := by
    rw [oldName_eq]
    apply key
    split
    · decide
    · exact hn _
  refine ⟨h1, ?_⟩
  intro h
  obtain ⟨c, hc, e⟩ := List.mem_map.1 h
  split at e
  · revert e; decide
  · exact h1 (e ▸ hc)

theorem eq_mem_opName (c : Bool) (i : Interp) : '=' ∈ opName c i := by
  rw [opName_eq]
  unfold tailName
  simp

theorem avoid_sub {cs cs' : List Char} (h : Avoid N cs) (hs : ∀ c ∈ cs', c ∈ cs) : Avoid N cs' := fun n hn c hc => h n hn c (hs c hc)

/-- The names are defined for every operator of the problem. -/
theorem C40_names_exist (hf : Fits S N) (a : Op) (ha : Valid S a) :
    (displayName S N a).isSome ∧ (copyFreeName S N a).isSome ∧ (legacyName S N a).isSome ∧ (opFromName S N).isSome := by
  obtain ⟨i, t, hi, -⟩ := interpret_some hf ha
  obtain ⟨rows, hr, -⟩ := nameRows_some hf
  simp [displayName, copyFreeName, legacyName, opFromName, hi, hr]

/-- **C40, display names.** Two operators of a problem with the same display name are the same operator, provided the names of the parties do not contain the characters `_`, `^`, `=`. -/
theorem C40_display_names_distinct (hf : Fits S N) (hav : Avoid N ['_', '^', '=']) (a b : Op) (ha : Valid S a) (hb : Valid S b)
    (h : displayName S N a = displayName S N b) : a = b := by
  obtain ⟨i, t, hi, hi'⟩ := interpret_some hf ha
  obtain ⟨j, u, hj, hj'⟩ := interpret_some hf hb
  simp only [displayName, hi, hj, Option.map_some, Option.some.injEq] at h
  exact display_inj hav hf ha hb hi' hj' h

/-- **C40, names without copy indices.** They determine party, setting and outcome. -/
theorem C40_copy_free_names (hf : Fits S N) (hav : Avoid N ['_', '^', '=']) (a b : Op) (ha : Valid S a) (hb : Valid S b) :
    copyFreeName S N a = copyFreeName S N b ↔ a.party = b.party ∧ a.setting = b.setting ∧ a.outcome = b.outcome := by
  obtain ⟨i, t, hi, hi'⟩ := interpret_some hf ha
  obtain ⟨j, u, hj, hj'⟩ := interpret_some hf hb
  simp only [copyFreeName, hi, hj, Option.map_some, Option.some.injEq]
  constructor
  · intro h
    obtain ⟨h1, -, h3, h4, -⟩ := opName_ops hav hf ha hb hi' hj' (s := []) (s' := []) stops_nil stops_nil (by rw [h])
    exact ⟨h1, h3, h4⟩
  · rintro ⟨h1, h2, h3⟩
    have ht : t = u := by
      have e1 := hi'.decode
      have e2 := hj'.decode
      rw [← h1, ← h2] at e2
      rw [e1] at e2
      exact Option.some.inj e2
    rw [opName_eq, opName_eq]
    unfold tailName copyPart doPart
    rw [hi'.party, hj'.party, hi'.privateTrivial, hj'.privateTrivial, hi'.priv, hj'.priv, hi'.outcome, hj'.outcome, hi'.doValues, hj'.doValues, h1, h3, ht]
    simp

theorem old_facts (hav : Avoid N ['_', '^', '=', '∅']) (hf : Fits S N) {a : Op} (ha : Valid S a) {i : Interp} {t : List Nat}
    (hi : InterpOf S N a i t) : '_' ∉ i.party ∧ '∅' ∉ i.party ∧ (i.compositeTrivial = true → i.composite = 0) := by
  refine ⟨?_, ?_, ?_⟩
  · rw [hi.party]; exact hav _ (name_mem hf ha) _ (by simp)
  · rw [hi.party]; exact hav _ (name_mem hf ha) _ (by simp)
  · intro h
    rw [hi.compositeTrivial] at h
    have h1 := ha.setting_lt
    have h2 : S.settings (a.party - 1) = 1 := by simpa using h
    rw [hi.composite]
    omega

/-- Legacy names of the two kinds determine the operator. -/
theorem old_inj (hav : Avoid N ['_', '^', '=', '∅']) (hf : Fits S N) {a b : Op} (ha : Valid S a) (hb : Valid S b) {i j : Interp} {t u : List Nat}
    (hi : InterpOf S N a i t) (hj : InterpOf S N b j u)
    (h : ∃ n, (n = oldName i ∨ n = (oldName i).map fun c => if c = '∅' then '0' else c) ∧ (n = oldName j ∨ n = (oldName j).map fun c => if c = '∅' then '0' else c)) :
    a = b := by
  obtain ⟨f1, f2, f3⟩ := old_facts hav hf ha hi
  obtain ⟨g1, g2, g3⟩ := old_facts hav hf hb hj
  rw [oldName0_eq f2 f3, oldName0_eq g2 g3, oldName_eq, oldName_eq] at h
  have hus : ∀ i : Interp, '_' ∉ (if i.compositeTrivial then ['∅'] else natStr i.composite) := by
    intro i
    split
    · decide
    · exact not_us_natStr _
  have hl : i.copies.length = j.copies.length := by rw [hi.copies, hj.copies, ha.copies_len, hb.copies_len]
  have fin : i.party = j.party → i.copies = j.copies → i.outcome = j.outcome → a.setting = b.setting → a = b := by
    intro h1 h2 h3 h4
    rw [hi.party, hj.party] at h1
    rw [hi.copies, hj.copies] at h2
    rw [hi.outcome, hj.outcome] at h3
    exact op_ext (party_eq hf ha hb h1) h2 h4 h3
  have triv : i.party = j.party → i.compositeTrivial = j.compositeTrivial := by
    intro h1
    rw [hi.party, hj.party] at h1
    rw [hi.compositeTrivial, hj.compositeTrivial, party_eq hf ha hb h1]
  have set : ∀ s s' : Str, (s = (if i.compositeTrivial then ['∅'] else natStr i.composite) ∨ s = natStr i.composite) →
      (s' = (if j.compositeTrivial then ['∅'] else natStr j.composite) ∨ s' = natStr j.composite) → s = s' → i.party = j.party → a.setting = b.setting := by
    intro s s' hs hs' e hp
    rw [← hi.composite, ← hj.composite]
    have ht := triv hp
    by_cases hc : i.compositeTrivial = true
    · rw [f3 hc, g3 (ht ▸ hc)]
    · have hc' : ¬ j.compositeTrivial = true := by rw [← ht]; exact hc
      simp only [hc, hc', Bool.false_eq_true, if_false, or_self] at hs hs'
      rw [hs, hs'] at e
      exact natStr_inj e
  obtain ⟨n, hn1, hn2⟩ := h
  rcases hn1 with rfl | rfl <;> rcases hn2 with e | e
  · obtain ⟨e1, e2, e3, e4⟩ := oldWith_span f1 g1 hl (hus i) (hus j) e
    exact fin e1 e2 e4 (set _ _ (Or.inl rfl) (Or.inl rfl) e3 e1)
  · obtain ⟨e1, e2, e3, e4⟩ := oldWith_span f1 g1 hl (hus i) (not_us_natStr _) e
    exact fin e1 e2 e4 (set _ _ (Or.inl rfl) (Or.inr rfl) e3 e1)
  · obtain ⟨e1, e2, e3, e4⟩ := oldWith_span f1 g1 hl (not_us_natStr _) (hus j) e
    exact fin e1 e2 e4 (set _ _ (Or.inr rfl) (Or.inl rfl) e3 e1)
  · obtain ⟨e1, e2, e3, e4⟩ := oldWith_span f1 g1 hl (not_us_natStr _) (not_us_natStr _) e
    exact fin e1 e2 e4 (set _ _ (Or.inr rfl) (Or.inr rfl) e3 e1)

/-- **C40, legacy names.** Two operators with the same legacy name (of either kind) are the same. -/
theorem C40_legacy_names_distinct (hf : Fits S N) (hav : Avoid N ['_', '^', '=', '∅']) (a b : Op) (ha : Valid S a) (hb : Valid S b) :
    (legacyName S N a = legacyName S N b → a = b) ∧ (legacyName0 S N a = legacyName0 S N b → a = b) := by
  obtain ⟨i, t, hi, hi'⟩ := interpret_some hf ha
  obtain ⟨j, u, hj, hj'⟩ := interpret_some hf hb
  simp only [legacyName0, legacyName, hi, hj, Option.map_some, Option.some.injEq]
  exact ⟨fun h => old_inj hav hf ha hb hi' hj' ⟨_, Or.inl rfl, Or.inl h⟩, fun h => old_inj hav hf ha hb hi' hj' ⟨_, Or.inr rfl, Or.inr h⟩⟩

/-- **C40, reading back.** The display name and both legacy names of the operator of rank `k` are read back as `k` by a linear program, and as `k + 1` by a semidefinite program (where rank 0 is the zero operator). -/
theorem C40_names_read_back (hf : Fits S N) (hav : Avoid N ['_', '^', '=', '∅']) (k : Nat) (a : Op) (hk : S.lexorder[k]? = some a) (n : Str)
    (hn : displayName S N a = some n ∨ legacyName S N a = some n ∨ legacyName0 S N a = some n) :
    (∃ d, opFromName S N = some d ∧ Dict.get d n = some k) ∧ (∃ d, opFromNameSdp S N = some d ∧ Dict.get d n = some (k + 1)) := by
  have ha : Valid S a := (mem_lexorder S).1 (List.mem_of_getElem? hk)
  have hav3 : Avoid N ['_', '^', '='] := avoid_sub hav (by simp)
  obtain ⟨i, t, hi, hi'⟩ := interpret_some hf ha
  simp only [displayName, legacyName0, legacyName, hi, Option.map_some, Option.some.injEq] at hn
  have hmain : ∃ d, opFromName S N = some d ∧ Dict.get d n = some k := by
    rw [reads_iff hf]
    refine ⟨⟨a, i, hk, hi, ?_⟩, ?_⟩
    · unfold allNames
      simp only [List.mem_cons, List.not_mem_nil, or_false]
      rcases hn with rfl | rfl | rfl <;> simp
    · intro k' hk' b j hb hj hmem
      have hbv : Valid S b := (mem_lexorder S).1 (List.mem_of_getElem? hb)
      obtain ⟨u, hj'⟩ := interp_of hf hbv hj
      have hne : a ≠ b := by
        rintro rfl
        have h1 := List.getElem?_eq_some_iff.1 hk
        have h2 := List.getElem?_eq_some_iff.1 hb
        have := (List.Nodup.getElem_inj_iff (lexorder_nodup S)).1 (h1.2.trans h2.2.symm)
        omega
      unfold allNames at hmem
      simp only [List.mem_cons, List.not_mem_nil, or_false] at hmem
      obtain ⟨o1, o2⟩ := eq_not_mem_oldName hav hf ha hi'
      obtain ⟨p1, p2⟩ := eq_not_mem_oldName hav hf hbv hj'
      rcases hn with rfl | hn
      · rcases hmem with e | e | e | e
        · exact hne (display_inj hav3 hf ha hbv hi' hj' e)
        · by_cases hc : anyInflation S = true
          · rw [hc] at e
            exact display_ne_free hav3 hf ha hbv hi' hj' e
          · have hc' : anyInflation S = false := by simpa using hc
            exact hne (display_inj hav3 hf ha hbv hi' hj' (by rw [e, hc']))
        · exact p1 (e ▸ eq_mem_opName _ i)
        · exact p2 (e ▸ eq_mem_opName _ i)
      · have hno : '=' ∉ n := by rcases hn with rfl | rfl <;> assumption
        rcases hmem with e | e | e | e
        · exact hno (e ▸ eq_mem_opName _ j)
        · exact hno (e ▸ eq_mem_opName _ j)
        · exact hne (old_inj hav hf ha hbv hi' hj' ⟨n, hn.imp Eq.symm Eq.symm, Or.inl e⟩)
        · exact hne (old_inj hav hf ha hbv hi' hj' ⟨n, hn.imp Eq.symm Eq.symm, Or.inr e⟩)
  refine ⟨hmain, ?_⟩
  rw [sdp_reads_iff hf]
  · exact hmain
  · rintro rfl
    rcases hn with e | e | e
    · have := eq_mem_opName (anyInflation S) i
      rw [e] at this
      revert this; decide
    · have : '_' ∈ oldName i := by rw [oldName_eq]; unfold oldWith; simp
      rw [e] at this
      revert this; decide
    · have : '_' ∈ (oldName i).map (fun c => if c = '∅' then '0' else c) := by
        rw [List.mem_map]
        exact ⟨'_', by rw [oldName_eq]; unfold oldWith; simp, by decide⟩
      rw [e] at this
      revert this; decide

/-- **C40, names without copy indices, reading.** Such a name is read as the first operator, in the order of the problem, with that party, setting and outcome. -/
theorem C40_copy_free_name_reads_first (hf : Fits S N) (hav : Avoid N ['_', '^', '=', '∅']) (a : Op) (ha : Valid S a) (n : Str)
    (hn : copyFreeName S N a = some n) (k : Nat) :
    (∃ d, opFromName S N = some d ∧ Dict.get d n = some k) ↔
      (∃ b, S.lexorder[k]? = some b ∧ b.party = a.party ∧ b.setting = a.setting ∧ b.outcome = a.outcome) ∧
      ∀ k' < k, ∀ b, S.lexorder[k']? = some b → ¬ (b.party = a.party ∧ b.setting = a.setting ∧ b.outcome = a.outcome) := by
  have hav3 : Avoid N ['_', '^', '='] := avoid_sub hav (by simp)
  obtain ⟨i, t, hi, hi'⟩ := interpret_some hf ha
  have hn' : opName false i = n := by simpa [copyFreeName, hi] using hn
  have key : ∀ b, Valid S b → ∀ j, interpret S N b = some j → (n ∈ allNames S j ↔ (b.party = a.party ∧ b.setting = a.setting ∧ b.outcome = a.outcome)) := by
    intro b hb j hj
    obtain ⟨u, hj'⟩ := interp_of hf hb hj
    rw [← C40_copy_free_names hf hav3 b a hb ha]
    simp only [copyFreeName, hi, hj, Option.map_some, Option.some.injEq]
    unfold allNames
    simp only [List.mem_cons, List.not_mem_nil, or_false]
    obtain ⟨p1, p2⟩ := eq_not_mem_oldName hav hf hb hj'
    have hmem := eq_mem_opName false i
    constructor
    · rintro (e | e | e | e)
      · by_cases hc : anyInflation S = true
        · rw [hc] at e
          exact absurd (e.symm.trans hn'.symm) (display_ne_free hav3 hf hb ha hj' hi')
        · have hc' : anyInflation S = false := by simpa using hc
          rw [hc'] at e
          exact e.symm.trans hn'.symm
      · exact e.symm.trans hn'.symm
      · rw [hn', e] at hmem
        exact absurd hmem p1
      · rw [hn', e] at hmem
        exact absurd hmem p2
    · intro e
      exact Or.inr (Or.inl (hn'.symm.trans e.symm))
  rw [reads_iff hf]
  constructor
  · rintro ⟨⟨b, j, hb, hj, hm⟩, h2⟩
    refine ⟨⟨b, hb, (key b ((mem_lexorder S).1 (List.mem_of_getElem? hb)) j hj).1 hm⟩, ?_⟩
    intro k' hk' b' hb' hc
    have hv := (mem_lexorder S).1 (List.mem_of_getElem? hb')
    obtain ⟨j', u', hj', -⟩ := interpret_some hf hv
    exact h2 k' hk' b' j' hb' hj' ((key b' hv j' hj').2 hc)
  · rintro ⟨⟨b, hb, hc⟩, h2⟩
    have hv := (mem_lexorder S).1 (List.mem_of_getElem? hb)
    obtain ⟨j, u, hj, -⟩ := interpret_some hf hv
    refine ⟨⟨b, j, hb, hj, (key b hv j hj).2 hc⟩, ?_⟩
    intro k' hk' b' j' hb' hj' hm
    exact h2 k' hk' b' hb' ((key b' ((mem_lexorder S).1 (List.mem_of_getElem? hb')) j' hj').1 hm)

end Verif.Names
