import Verif.Sanitise.Props
/-!
C60: the symbol of a moment of the table denotes the moment.
-/
namespace Verif.Sanitise
open Verif.Common Verif.Scenario Verif.Orbits Verif.Components Verif.Moment Verif.State Verif.Text Verif.Names Verif.EndToEnd
open Verif.Symmetry (lexorderSymmetries)

variable {I : Input} {names order : List Str}

/-! ### The replacement of `_...=` is injective -/

theorem mem_scan : ∀ (s : Str) (b : Bool), '=' ∈ symbolScan b s ↔ '=' ∈ s := by
  intro s
  induction s with
  | nil => intro b; cases b <;> simp [symbolScan]
  | cons c s ih =>
    intro b
    cases b with
    | false =>
      rw [symbolScan]
      split
      · rename_i h
        obtain ⟨rfl, h⟩ := h
        simp [ih true, h]
      · simp [ih false]
    | true =>
      rw [symbolScan]
      split
      · rename_i h
        subst h
        simp [ih true]
      · split
        · rename_i h
          subst h
          simp
        · simp [ih true]

theorem scan_true_head {s t : Str} : symbolScan true s ≠ '=' :: t := by
  intro e
  cases s with
  | nil => simp [symbolScan] at e
  | cons c s =>
    rw [symbolScan] at e
    split at e
    · exact absurd (List.cons.inj e).1 (by decide)
    · split at e
      · exact absurd (List.cons.inj e).1 (by decide)
      · rename_i h
        exact h (List.cons.inj e).1

theorem scan_true_clash {s t : Str} : symbolScan true s ≠ '{' :: '=' :: t := by
  intro e
  cases s with
  | nil => simp [symbolScan] at e
  | cons c s =>
    rw [symbolScan] at e
    split at e
    · exact absurd (List.cons.inj e).1 (by decide)
    · split at e
      · exact absurd (List.cons.inj e).1 (by decide)
      · exact scan_true_head (List.cons.inj e).2

theorem scan_inj : ∀ (s s' : Str) (b : Bool), symbolScan b s = symbolScan b s' → s = s' := by
  intro s
  induction s with
  | nil =>
    intro s' b e
    cases s' with
    | nil => rfl
    | cons c s' =>
      exfalso
      cases b <;> rw [symbolScan, symbolScan] at e <;> split at e <;> first | cases e | skip
      split at e <;> cases e
  | cons c s ih =>
    intro s' b e
    cases s' with
    | nil =>
      exfalso
      cases b <;> rw [symbolScan, symbolScan] at e <;> split at e <;> first | cases e | skip
      split at e <;> cases e
    | cons c' s' =>
      cases b with
      | false =>
        rw [symbolScan, symbolScan] at e
        split at e
        · rename_i h
          split at e
          · rename_i h'
            rw [h.1, h'.1, ih s' true (List.cons.inj (List.cons.inj e).2).2]
          · rename_i h'
            exfalso
            obtain ⟨e1, e2⟩ := List.cons.inj e
            have h1 : '=' ∈ '{' :: symbolScan true s := List.mem_cons_of_mem _ ((mem_scan s true).2 h.2)
            rw [e2] at h1
            exact h' ⟨e1.symm, (mem_scan s' false).1 h1⟩
        · rename_i h
          split at e
          · rename_i h'
            exfalso
            obtain ⟨e1, e2⟩ := List.cons.inj e
            have h1 : '=' ∈ '{' :: symbolScan true s' := List.mem_cons_of_mem _ ((mem_scan s' true).2 h'.2)
            rw [← e2] at h1
            exact h ⟨e1, (mem_scan s false).1 h1⟩
          · obtain ⟨e1, e2⟩ := List.cons.inj e
            rw [e1, ih s' false e2]
      | true =>
        rw [symbolScan, symbolScan] at e
        split at e
        · rename_i h
          split at e
          · rename_i h'
            rw [h, h', ih s' true (List.cons.inj (List.cons.inj e).2).2]
          · rename_i h'
            exfalso
            split at e
            · exact absurd (List.cons.inj e).1 (by decide)
            · exact h' (List.cons.inj e).1.symm
        · rename_i h
          split at e
          · rename_i h2
            split at e
            · exact absurd (List.cons.inj e).1 (by decide)
            · split at e
              · rename_i h2'
                rw [h2, h2', ih s' false (List.cons.inj (List.cons.inj (List.cons.inj (List.cons.inj e).2).2).2).2]
              · exfalso
                exact scan_true_clash (List.cons.inj e).2.symm
          · rename_i h2
            split at e
            · rename_i h'
              exact absurd (List.cons.inj e).1 h
            · split at e
              · exfalso
                exact scan_true_clash (List.cons.inj e).2
              · obtain ⟨e1, e2⟩ := List.cons.inj e
                rw [e1, ih s' true e2]

/-! ### The replacement of spaces by commas -/

/-- `replace(' ', ',')` on one character. -/
def comma (c : Char) : Char := if c = ' ' then ',' else c

theorem comma_eq {c d : Char} (h1 : d ≠ ' ') (h2 : d ≠ ',') : comma c = d ↔ c = d := by
  unfold comma
  split
  · rename_i h
    subst h
    exact ⟨fun e => absurd e.symm h2, fun e => absurd e.symm h1⟩
  · rfl

theorem mem_comma {s : Str} : '=' ∈ s.map comma ↔ '=' ∈ s := by
  rw [List.mem_map]
  constructor
  · rintro ⟨c, hc, e⟩
    rw [(comma_eq (by decide) (by decide)).1 e] at hc
    exact hc
  · exact fun h => ⟨'=', h, by decide⟩

theorem scan_comma : ∀ (s : Str) (b : Bool), (symbolScan b s).map comma = symbolScan b (s.map comma) := by
  intro s
  induction s with
  | nil => intro b; cases b <;> rfl
  | cons c s ih =>
    intro b
    have hu : comma c = '_' ↔ c = '_' := comma_eq (by decide) (by decide)
    have he : comma c = '=' ↔ c = '=' := comma_eq (by decide) (by decide)
    cases b with
    | false =>
      rw [List.map_cons, symbolScan, symbolScan]
      by_cases h : c = '_' ∧ '=' ∈ s
      · rw [if_pos h, if_pos ⟨hu.2 h.1, mem_comma.2 h.2⟩, List.map_cons, List.map_cons, ih true]
        rfl
      · rw [if_neg h, if_neg (fun h' => h ⟨hu.1 h'.1, mem_comma.1 h'.2⟩), List.map_cons, ih false]
    | true =>
      rw [List.map_cons, symbolScan, symbolScan]
      by_cases h : c = '_'
      · rw [if_pos h, if_pos (hu.2 h), List.map_cons, List.map_cons, ih true]
        rfl
      · rw [if_neg h, if_neg (fun h' => h (hu.1 h'))]
        by_cases h2 : c = '='
        · rw [if_pos h2, if_pos (he.2 h2)]
          simp only [List.map_cons, ih false]
          rfl
        · rw [if_neg h2, if_neg (fun h' => h2 (he.1 h')), List.map_cons, ih true]

/-- The bracket depth after a character. -/
def bump (d : Nat) (c : Char) : Nat := if c = '{' ∨ c = '(' then d + 1 else if c = '}' ∨ c = ')' then d - 1 else d

/-- Commas outside of brackets become spaces. -/
def restore : Nat → Str → Str
  | _, [] => []
  | d, c :: s => (if c = ',' ∧ d = 0 then ' ' else c) :: restore (bump d c) s

def depth (d : Nat) (s : Str) : Nat := s.foldl bump d

/-- Text from which the spaces can be restored. -/
def Good (d : Nat) (s : Str) : Prop := restore d (s.map comma) = s ∧ depth d (s.map comma) = d

theorem restore_append (d : Nat) (s t : Str) : restore d (s ++ t) = restore d s ++ restore (depth d s) t := by
  induction s generalizing d with
  | nil => rfl
  | cons c s ih =>
    show _ :: restore (bump d c) (s ++ t) = _
    rw [ih]
    rfl

theorem Good.append {d : Nat} {s t : Str} (hs : Good d s) (ht : Good d t) : Good d (s ++ t) := by
  unfold Good
  rw [List.map_append, restore_append]
  refine ⟨by rw [hs.1, hs.2, ht.1], ?_⟩
  have h1 : depth d (s.map comma ++ t.map comma) = depth (depth d (s.map comma)) (t.map comma) := List.foldl_append
  rw [h1, hs.2, ht.2]

theorem good_nil (d : Nat) : Good d [] := ⟨rfl, rfl⟩

theorem good_plain {d : Nat} {s : Str} (h : ∀ c ∈ s, c ∉ ['{', '}', '(', ')', ' '] ∧ (d = 0 → c ≠ ',')) : Good d s := by
  induction s with
  | nil => exact good_nil d
  | cons c s ih =>
    obtain ⟨h1, h2⟩ := h c (List.mem_cons_self ..)
    have hs := ih fun c hc => h c (List.mem_cons_of_mem _ hc)
    have e1 : comma c = c := by
      unfold comma
      rw [if_neg]
      rintro rfl
      exact h1 (by decide)
    have e2 : bump d c = d := by
      unfold bump
      rw [if_neg, if_neg]
      · rintro (rfl | rfl) <;> exact h1 (by decide)
      · rintro (rfl | rfl) <;> exact h1 (by decide)
    unfold Good
    rw [List.map_cons, e1]
    constructor
    · rw [restore, e2, hs.1, if_neg]
      rintro ⟨rfl, hd⟩
      exact h2 hd rfl
    · show depth (bump d c) (s.map comma) = d
      rw [e2]
      exact hs.2

theorem good_wrap {d : Nat} {s : Str} {a z : Char} (ha : a = '{' ∨ a = '(') (hz : z = '}' ∨ z = ')') (h : Good (d + 1) s) : Good d (a :: s ++ [z]) := by
  have e1 : comma a = a := by rcases ha with rfl | rfl <;> decide
  have e2 : comma z = z := by rcases hz with rfl | rfl <;> decide
  have b1 : ∀ d, bump d a = d + 1 := fun d => by unfold bump; rw [if_pos ha]
  have b2 : ∀ d, bump (d + 1) z = d := by
    intro d
    unfold bump
    rw [if_neg, if_pos hz]
    · rfl
    · rcases hz with rfl | rfl <;> decide
  have n1 : a ≠ ',' := by rcases ha with rfl | rfl <;> decide
  have n2 : z ≠ ',' := by rcases hz with rfl | rfl <;> decide
  unfold Good
  rw [List.map_append, List.map_cons, List.map_singleton, e1, e2, List.cons_append]
  constructor
  · rw [restore, b1, restore_append, h.1, h.2, if_neg (fun h => n1 h.1), restore, if_neg (fun h => n2 h.1)]
    rfl
  · have h1 : depth d (a :: (s.map comma ++ [z])) = bump (depth (bump d a) (s.map comma)) z := by
      show List.foldl bump (bump d a) (s.map comma ++ [z]) = _
      rw [List.foldl_append]
      rfl
    rw [h1, b1, h.2, b2]

theorem good_natStr (d n : Nat) : Good d (natStr n) := good_plain fun c hc => by
  have hd : Digit c := natStr_digit n c hc
  constructor
  · intro hm
    revert hd
    fin_cases hm <;> (unfold Digit; decide)
  · rintro - rfl
    exact not_digit (by simp) hd

theorem good_joinNat {d : Nat} {sep : Char} (hsep : sep ∉ ['{', '}', '(', ')', ' '] ∧ (d = 0 → sep ≠ ',')) (l : List Nat) : Good d (joinNat sep l) := good_plain fun c hc => by
  rcases mem_joinNat hc with hd | rfl
  · constructor
    · intro hm
      revert hd
      fin_cases hm <;> (unfold Digit; decide)
    · rintro - rfl
      exact not_digit (by simp) hd
  · exact hsep

theorem good_char {d : Nat} {c : Char} (h : c ∉ ['{', '}', '(', ')', ' '] ∧ (d = 0 → c ≠ ',')) {s : Str} (hs : Good d s) : Good d (c :: s) :=
  Good.append (s := [c]) (good_plain (by simpa using h)) hs

theorem good_name {n : Str} (d : Nat) (h : ∀ c ∈ ['{', '}', '(', ')', ' ', ','], c ∉ n) : Good d n := good_plain fun c hc =>
  ⟨fun hm => h c (by fin_cases hm <;> decide) hc, fun _ e => h c (by rw [e]; decide) hc⟩

theorem good_opName {c : Bool} {i : Interp} (hp : ∀ x ∈ ['{', '}', '(', ')', ' ', ','], x ∉ i.party) (hd : ∀ kv ∈ i.doValues, ∀ x ∈ ['{', '}', '(', ')', ' ', ','], x ∉ kv.1) :
    Good 0 (opName c i) := by
  unfold opName
  refine Good.append (Good.append (Good.append (Good.append (good_name 0 hp) ?_) ?_) ?_) ?_
  · split
    · exact good_nil 0
    · exact good_char (by decide) (good_natStr 0 _)
  · split
    · refine Good.append ?_ (good_char (by decide) (good_joinNat (by decide) _))
      split
      · exact good_nil 0
      · exact good_char (c := '^') (by decide) (good_wrap (Or.inl rfl) (Or.inl rfl) (good_joinNat (by decide) _))
    · exact good_nil 0
  · exact good_char (by decide) (good_natStr 0 _)
  · split
    · exact good_nil 0
    · have hin : Good 1 (joinStr ',' (i.doValues.map doText)) := good_plain fun x hx => by
        refine ⟨?_, by simp⟩
        intro hm
        rcases mem_joinStr hx with rfl | ⟨w, hw, hx⟩
        · revert hm; decide
        · obtain ⟨kv, hkv, rfl⟩ := List.mem_map.1 hw
          unfold doText at hx
          rcases List.mem_append.1 hx with hx | hx
          · exact hd kv hkv x (by fin_cases hm <;> decide) hx
          · rcases List.mem_cons.1 hx with rfl | hx
            · revert hm; decide
            · have hdig : Digit x := natStr_digit _ x hx
              revert hdig
              fin_cases hm <;> (unfold Digit; decide)
      exact good_char (by decide) (good_char (by decide) (good_char (by decide) (good_wrap (Or.inr rfl) (Or.inr rfl) hin)))

theorem good_space : Good 0 [' '] := by
  constructor <;> rfl

theorem good_joinStr {l : List Str} (h : ∀ w ∈ l, Good 0 w) : Good 0 (joinStr ' ' l) := by
  match l, h with
  | [], _ => exact good_nil 0
  | [a], h => exact h a (by simp)
  | a :: b :: l, h =>
    rw [joinStr]
    exact (h a (by simp)).append (Good.append (s := [' ']) good_space (good_joinStr fun w hw => h w (List.mem_cons_of_mem _ hw)))

theorem good_atomText (h : NamesOk I names) (a : Atom) : Good 0 (atomText I names a) := by
  have hs := atomText_some h a
  unfold momentName at hs
  rcases hi : (I.operators a).mapM (interpret I.scenario (naming I names)) with _ | is
  · rw [hi] at hs; simp at hs
  rw [hi, Option.map_some, Option.some.injEq] at hs
  have hfacts := interps_facts h (operators_valid a) (mapM_some_forall2 hi)
  have hav : ∀ n ∈ (naming I names).names, ∀ x ∈ ['{', '}', '(', ')', ' ', ','], x ∉ n := fun n hn x hx => h.avoid n hn x (by fin_cases hx <;> decide)
  rw [← hs]
  unfold atomName
  rw [if_pos rfl]
  refine good_char (by decide) (good_char (by decide) (Good.append (good_joinStr ?_) (good_plain (by decide))))
  intro w hw
  split at hw
  · obtain ⟨i, hi, rfl⟩ := List.mem_map.1 hw
    exact good_opName (hav _ (hfacts i hi).1) fun kv hkv => hav _ ((hfacts i hi).2 kv (List.mem_of_mem_filter hkv))
  · obtain ⟨i, hi, rfl⟩ := List.mem_map.1 hw
    exact good_opName (hav _ (hfacts i hi).1) fun kv hkv => hav _ ((hfacts i hi).2 kv hkv)

/-- Atoms with the same symbol have the same name. -/
theorem symbolText_inj (h : NamesOk I names) {a b : Atom} (e : symbolText I names a = symbolText I names b) : atomText I names a = atomText I names b := by
  have e : (symbolScan false (atomText I names a)).map comma = (symbolScan false (atomText I names b)).map comma := e
  rw [scan_comma, scan_comma] at e
  have := congrArg (restore 0) (scan_inj _ _ _ e)
  rwa [(good_atomText h a).1, (good_atomText h b).1] at this

/-! ### The table of symbols -/

/-- Every moment of the table has its symbol in the table of symbols, and every entry is the symbol of its moment. -/
structure SymTable (I : Input) (names : List Str) (s : Session) : Prop where
  entry : ∀ e ∈ s.symbols, e.1 = e.2.map (symbolText I names)
  mem : ∀ m ∈ s.created, (m.map (symbolText I names), m) ∈ s.symbols

theorem register_table {s : Session} (hs : SymTable I names s) (m : Mon) : SymTable I names (register I names s m) := by
  unfold register
  split
  · exact hs
  · constructor
    · intro e he
      rcases List.mem_cons.1 he with rfl | he
      · rfl
      · exact hs.entry e he
    · intro m' hm'
      rcases List.mem_append.1 hm' with hm' | hm'
      · exact List.mem_cons_of_mem _ (hs.mem m' hm')
      · rw [List.mem_singleton.1 hm']
        exact List.mem_cons_self ..

theorem monomial_table {s : Session} (hs : SymTable I names s) (a : List Nat) : SymTable I names (monomial I names s a).1 := by
  show SymTable I names (register I names { s with cache := (monomialOf I.scenario s.cache a).1 } _)
  exact register_table (s := { s with cache := (monomialOf I.scenario s.cache a).1 }) ⟨hs.entry, hs.mem⟩ _

theorem sanitise_table {s s' : Session} (hs : SymTable I names s) {f : Form} {m : Mon} (e : sanitise I names order s f = some (s', m)) : SymTable I names s' := by
  have viaRanks : ∀ {a : List Nat}, readRanks I names s a = some (s', m) → SymTable I names s' := by
    intro a e
    unfold readRanks at e
    split at e
    · have := monomial_table hs (wrap I.scenario a)
      rw [Option.some.inj e] at this
      exact this
    · simp at e
  have viaRows : ∀ {rows : List Op}, readRows I names s rows = some (s', m) → SymTable I names s' := by
    intro rows e
    unfold readRows at e
    obtain ⟨w, -, e⟩ := Option.bind_eq_some_iff.1 e
    exact viaRanks e
  have same : ∀ {m' : Mon}, some (s, m') = some (s', m) → SymTable I names s' := by
    intro m' e
    obtain ⟨rfl, rfl⟩ := Prod.mk.inj (Option.some.inj e)
    exact hs
  cases f with
  | moment m' => exact same e
  | atom a =>
    have := register_table hs [a]
    rwa [(Prod.mk.inj (Option.some.inj e)).1] at this
  | array1 a => exact viaRanks e
  | array2 rows => exact viaRows e
  | name t =>
    simp only [sanitise] at e
    split at e
    · exact same e
    · obtain ⟨rows, -, e⟩ := Option.bind_eq_some_iff.1 e
      exact viaRows e
  | symbol l =>
    simp only [sanitise] at e
    split at e
    · exact same e
    · split at e
      · exact same e
      · obtain ⟨rows, -, e⟩ := Option.bind_eq_some_iff.1 e
        exact viaRows e
  | number r =>
    simp only [sanitise] at e
    split at e
    · exact same e
    · simp at e

theorem reachable_table {s : Session} (hr : Reachable I names order s) : SymTable I names s := by
  unfold Reachable Later at hr
  induction hr with
  | refl =>
    unfold generated
    have h0 : SymTable I names start := by
      constructor
      · intro e he
        have : e = ([], []) := by simpa [start] using he
        rw [this]; rfl
      · intro m hm
        simp [start] at hm
    generalize start = s0 at h0
    induction I.columns generalizing s0 with
    | nil => exact h0
    | cons v vs ih => exact ih _ (monomial_table h0 _)
  | tail _ hstep ih =>
    cases hstep with
    | read _ e => exact sanitise_table ih e
    | combine _ => exact register_table ih _

theorem perm_of_map {α β : Type} {f : α → β} {l l' : List α} (hinj : ∀ a ∈ l ++ l', ∀ b ∈ l ++ l', f a = f b → a = b) (h : (l.map f).Perm (l'.map f)) : l.Perm l' := by
  classical
  rw [List.perm_iff_count]
  intro a
  by_cases ha : a ∈ l ++ l'
  · have hc : ∀ l0 : List α, (∀ b ∈ l0, b ∈ l ++ l') → (l0.map f).count (f a) = l0.count a := by
      intro l0 hl0
      rw [List.count, List.countP_map, List.count]
      apply List.countP_congr
      intro b hb
      simp only [Function.comp, beq_iff_eq]
      exact ⟨fun e => hinj b (hl0 b hb) a ha e, fun e => by rw [e]⟩
    rw [← hc l (fun b hb => List.mem_append.2 (Or.inl hb)), ← hc l' (fun b hb => List.mem_append.2 (Or.inr hb)), h.count_eq]
  · rw [List.mem_append, not_or] at ha
    rw [List.count_eq_zero_of_not_mem ha.1, List.count_eq_zero_of_not_mem ha.2]

/-- The symbol of a moment of the table (the product of the symbols of its atoms, in any order) denotes the moment, now and later. -/
theorem C60_symbol_reads_back (hI : I.Accepted) (h : NamesOk I names) {s s' : Session} (hr : Reachable I names order s) (hl : Later I names order s s') {m : Mon} (hm : m ∈ s.created)
    {l : List Str} (hp : l.Perm (m.map (symbolText I names))) : sanitise I names order s' (.symbol l) = some (s', m) := by
  have hr' : Reachable I names order s' := hr.trans hl
  obtain ⟨i1, i2⟩ := reachable_inv hI h hr
  obtain ⟨l1, l2, l3, -⟩ := later_inv h i1 i2 hl
  have hm' := l3 m hm
  have ht := reachable_table hr'
  simp only [sanitise]
  rcases hfind : s'.symbols.find? fun e => e.1.isPerm l with _ | e
  · exfalso
    have := List.find?_eq_none.1 hfind _ (ht.mem m hm')
    rw [Bool.not_eq_true] at this
    rw [List.isPerm_iff.2 hp.symm] at this
    simp at this
  · rw [hfind]
    show some (s', e.2) = _
    have he := List.mem_of_find?_eq_some hfind
    have hpe : e.1.isPerm l = true := List.find?_some (p := fun e : List Str × Mon => e.1.isPerm l) hfind
    have hperm : (e.2.map (symbolText I names)).Perm (m.map (symbolText I names)) := by
      rw [← ht.entry e he]
      exact (List.isPerm_iff.1 hpe).trans hp
    have hatoms : ∀ a ∈ e.2 ++ m, ∃ k, s'.cache.lookup k = some a := by
      intro a ha
      rcases List.mem_append.1 ha with ha | ha
      · rcases l2 e he with hc | hc
        · exact l1.atoms e.2 hc a ha
        · rw [hc] at ha; simp at ha
      · exact l1.atoms m hm' a ha
    have hmm : e.2.Perm m := perm_of_map (by
      intro a ha b hb eab
      obtain ⟨k, hk⟩ := hatoms a ha
      obtain ⟨k', hk'⟩ := hatoms b hb
      exact atomText_inj h l1.cache hk hk' (symbolText_inj h eab)) hperm
    have hse : sortBy atomLe e.2 = e.2 := by
      rcases l2 e he with hc | hc
      · exact l1.sorted e.2 hc
      · rw [hc]; rfl
    have : e.2 = m := by rw [← hse, ← l1.sorted m hm', sort_perm hmm]
    rw [this]

end Verif.Sanitise
