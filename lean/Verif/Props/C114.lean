import Verif.Model.ChainIndex
import Verif.Props.C17
import Verif.Props.C74

/-!
# C114: places of states in one-dimensional bases

`index` of a chain finds the place of a state, given as an integer or as a string of occupations; `state_to_int` and `int_to_state` are inverse to
each other.  Specification: `Spec.occ sps N s i` is the occupation of site `i` in the state `s`; the string of a state has one decimal digit per site.
-/
namespace Props
open Model Spec Model.ChainIndex

/-- The string of a state with `sps ≤ 10`: its occupations, from site 0 on. -/
def occupations (sps N s : Nat) : List Char := (List.range N).map fun i => Nat.digitChar (occ sps N s i)

theorem mem_places (rows : List Nat) (v : Int) (i : Nat) : i ∈ places rows v ↔ ∃ s, rows[i]? = some s ∧ (s : Int) = v := by
  unfold places
  rw [List.mem_filter, List.mem_range, decide_eq_true_eq, Option.map_eq_some_iff]
  constructor
  · rintro ⟨-, s, h1, h2⟩; exact ⟨s, h1, h2⟩
  · rintro ⟨s, h1, h2⟩; exact ⟨(List.getElem?_eq_some_iff.1 h1).1, s, h1, h2⟩

theorem places_nodup (rows : List Nat) (v : Int) : (places rows v).Nodup := List.nodup_range.filter _

/-- Integers: `index` answers with a number `i` exactly if `i` is the only place of the state, with an array exactly if there are several places, which it lists
in increasing order, and raises exactly if the state is not in the basis. -/
theorem C114_index (sps : Nat) (rows : List Nat) (n : Int) :
    (∀ i, index sps rows (.int n) = .ok (.one i) ↔ ∀ j : Nat, (∃ s : Nat, rows[j]? = some s ∧ (s : Int) = n) ↔ j = i) ∧
    (∀ l, index sps rows (.int n) = .ok (.many l) ↔ 2 ≤ l.length ∧ l.Pairwise (· < ·) ∧ ∀ j, j ∈ l ↔ ∃ s : Nat, rows[j]? = some s ∧ (s : Int) = n) ∧
    ((∃ e, index sps rows (.int n) = .error e) ↔ ∀ s ∈ rows, (s : Int) ≠ n) := by
  have hm := mem_places rows n
  have hp : (places rows n).Pairwise (· < ·) := List.pairwise_lt_range.filter _
  have hi : index sps rows (.int n) = match places rows n with | [] => .error .absent | [i] => .ok (.one i) | l => .ok (.many l) := rfl
  have hex : (∀ s ∈ rows, (s : Int) ≠ n) ↔ ∀ j, j ∉ places rows n := by
    constructor
    · intro h j hj
      obtain ⟨s, h1, h2⟩ := (hm j).1 hj
      exact h s (List.mem_of_getElem? h1) h2
    · intro h s hs e
      obtain ⟨j, hj⟩ := List.mem_iff_getElem?.1 hs
      exact h j ((hm j).2 ⟨s, hj, e⟩)
  simp only [← hm, hex]
  generalize places rows n = l at hp hi
  rw [hi]
  rcases l with _ | ⟨a, _ | ⟨b, l⟩⟩
  · refine ⟨fun i => ?_, fun l => ?_, by simp⟩
    · simp only [reduceCtorEq, false_iff]
      intro h
      exact absurd ((h i).2 rfl) (by simp)
    · simp only [reduceCtorEq, false_iff]
      rintro ⟨h1, _, h3⟩
      rcases l with _ | ⟨c, l⟩
      · simp at h1
      · exact absurd ((h3 c).1 (by simp)) (by simp)
  · refine ⟨fun i => ?_, fun l => ?_, ?_⟩
    · simp only [Except.ok.injEq, Found.one.injEq, List.mem_singleton]
      constructor
      · rintro rfl j; rfl
      · intro h; exact (h a).1 rfl
    · simp only [Except.ok.injEq, reduceCtorEq, false_iff]
      rintro ⟨h1, h2, h3⟩
      rcases l with _ | ⟨c, _ | ⟨d, l⟩⟩
      · simp at h1
      · simp at h1
      · have e1 := (h3 c).1 (by simp)
        have e2 := (h3 d).1 (by simp)
        have := (List.pairwise_cons.1 h2).1 d (by simp)
        simp at e1 e2
        omega
    · simp
  · refine ⟨fun i => ?_, fun l' => ?_, ?_⟩
    · simp only [Except.ok.injEq, reduceCtorEq, false_iff]
      intro h
      have e1 := (h a).1 (by simp)
      have e2 := (h b).1 (by simp)
      have := (List.pairwise_cons.1 hp).1 b (by simp)
      omega
    · simp only [Except.ok.injEq, Found.many.injEq]
      constructor
      · rintro rfl; exact ⟨by simp, hp, fun j => Iff.rfl⟩
      · rintro ⟨-, h2, h3⟩
        exact List.Perm.eq_of_pairwise (le := (· < ·)) (fun x y _ _ hx hy => by omega) hp h2
          ((List.perm_ext_iff_of_nodup (hp.imp fun h => by omega) (h2.imp fun h => by omega)).2 fun j => (h3 j).symm)
    · simp only [reduceCtorEq, exists_false, false_iff]
      intro h
      exact h a (by simp)

theorem parse_occupations (sps N : Nat) (hsps : 2 ≤ sps) (base : Nat) (hle : sps ≤ base) (h10 : base ≤ 10) (hN : 0 < N) (s : Nat) :
    parseInt base (occupations sps N s) = some (((List.range N).map (occ sps N s)).foldl (fun a d => a * base + d) 0) := by
  unfold parseInt occupations
  rw [if_neg, show (List.range N).map (fun i => Nat.digitChar (occ sps N s i)) = ((List.range N).map (occ sps N s)).map Nat.digitChar by simp,
    parse_digits base h10]
  · intro d hd
    obtain ⟨i, -, rfl⟩ := List.mem_map.1 hd
    exact lt_of_lt_of_le (Nat.mod_lt _ (by omega)) hle
  · rintro (h | h | h)
    · omega
    · omega
    · rw [List.map_eq_nil_iff, List.range_eq_nil] at h; omega

/-- Strings: for chains of any length, `index` of the string of occupations of a state answers as `index` of its integer.
Missing: more than ten states per site (`C114_fails_letters`). -/
theorem C114_strings_partial (sps N : Nat) (hsps : 2 ≤ sps) (h10 : sps ≤ 10) (hN : 0 < N) (rows : List Nat) (s : Nat) (hs : s < sps ^ N) :
    index sps rows (.str (occupations sps N s)) = index sps rows (.int s) := by
  unfold ChainIndex.index wanted
  simp only [parse_occupations sps N hsps 10 h10 le_rfl hN, parse_occupations sps N hsps sps le_rfl h10 hN, fold_occ, Nat.mod_eq_of_lt hs]

/-- In a basis without repeated states `state_to_int` undoes `int_to_state` on every state of the basis, and `int_to_state` undoes `state_to_int` on the string
of every state of the basis; on strings of occupations that are not in the basis `state_to_int` raises.
Missing: more than ten states per site (`C114_fails_letters`), more than 64 sites, where `int_to_state` shortens the string, and bases with repeated states
(`C114_fails_twice`). -/
theorem C114_round_trip_partial (sps N : Nat) (hsps : 2 ≤ sps) (h10 : sps ≤ 10) (hN : 0 < N) (h64 : N ≤ 64) (rows : List Nat) (hn : rows.Nodup)
    (s : Nat) (hs : s < sps ^ N) :
    (s ∈ rows → ChainIndex.stateToInt sps rows (.str (intToState sps N s false)) = .ok s) ∧
    (s ∈ rows → ∃ t, ChainIndex.stateToInt sps rows (.str (occupations sps N s)) = .ok t ∧ intToState sps N t false = occupations sps N s) ∧
    (s ∉ rows → ∃ e, ChainIndex.stateToInt sps rows (.str (occupations sps N s)) = .error e) := by
  have e : intToState sps N s false = occupations sps N s := C17_string sps N (by omega) h10 h64 s
  have hin : s ∈ rows → ChainIndex.stateToInt sps rows (.str (occupations sps N s)) = .ok s := by
    intro h
    obtain ⟨i, hi⟩ := List.mem_iff_getElem?.1 h
    have h1 : index sps rows (.int s) = .ok (.one i) := by
      refine ((C114_index sps rows s).1 i).2 fun j => ⟨?_, ?_⟩
      · rintro ⟨t, ht, h2⟩
        have : t = s := by exact_mod_cast h2
        subst this
        obtain ⟨a1, a2⟩ := List.getElem?_eq_some_iff.1 ht
        obtain ⟨b1, b2⟩ := List.getElem?_eq_some_iff.1 hi
        exact (List.Nodup.getElem_inj_iff hn).1 (a2.trans b2.symm)
      · rintro rfl; exact ⟨s, hi, rfl⟩
    unfold ChainIndex.stateToInt
    rw [C114_strings_partial sps N hsps h10 hN rows s hs, h1]
    simp [List.getD_eq_getElem?_getD, hi]
  refine ⟨fun h => e ▸ hin h, fun h => ⟨s, hin h, e⟩, fun h => ?_⟩
  obtain ⟨e', he⟩ := (C114_index sps rows s).2.2.2 fun t ht hts => h ((by exact_mod_cast hts : t = s) ▸ ht)
  refine ⟨e', ?_⟩
  unfold ChainIndex.stateToInt
  rw [C114_strings_partial sps N hsps h10 hN rows s hs, he]

/-- Two bosons on two sites, at most two per site: `"20"` is the state 6, at place 0 of the basis 6, 4, 2. -/
example : occupations 3 2 6 = ['2', '0'] ∧ index 3 [6, 4, 2] (.str ['2', '0']) = .ok (.one 0) ∧ index 3 [6, 4, 2] (.int 2) = .ok (.one 2) ∧
    index 3 [6, 4, 2] (.str ['2', '2']) = .error .absent ∧ ChainIndex.stateToInt 3 [6, 4, 2] (.str (intToState 3 2 4 false)) = .ok 4 ∧
    [6, 4, 2].Nodup ∧ 6 < 3 ^ 2 := by
  refine ⟨by decide, by decide, by decide, by decide, ?_, by decide, by decide⟩
  exact (C114_round_trip_partial 3 2 (by omega) (by omega) (by omega) (by omega) [6, 4, 2] (by decide) 4 (by decide)).1 (by decide)

theorem parse_none (base : Nat) (l : List Char) : l.foldl (parseDigit base) none = none := by
  induction l with
  | nil => rfl
  | cons c l ih => rw [List.foldl_cons]; exact ih

theorem parse_chars (base : Nat) (l : List Char) (a v : Nat) (h : l.foldl (parseDigit base) (some a) = some v) :
    ∀ c ∈ l, ∃ d < base, charValue c = some d := by
  induction l generalizing a with
  | nil => simp
  | cons c l ih =>
    rw [List.foldl_cons] at h
    cases hc : charValue c with
    | none =>
      rw [show parseDigit base (some a) c = none by simp [parseDigit, hc], parse_none] at h
      simp at h
    | some d =>
      by_cases hd : d < base
      · rw [show parseDigit base (some a) c = some (a * base + d) by simp [parseDigit, hc, hd]] at h
        intro x hx
        rcases List.mem_cons.1 hx with rfl | hx
        · exact ⟨d, hd, hc⟩
        · exact ih _ h x hx
      · rw [show parseDigit base (some a) c = none by simp [parseDigit, hc, hd], parse_none] at h
        simp at h

/-- Strings with a character that is no decimal digit, or a digit that is no occupation, are refused, and so is the empty string. -/
theorem C114_refused (sps : Nat) (rows : List Nat) (text : List Char)
    (h : text = [] ∨ ∃ c ∈ text, ∀ d, d < 10 → d < sps → charValue c ≠ some d) : index sps rows (.str text) = .error .text := by
  unfold ChainIndex.index wanted
  cases h1 : parseInt 10 text with
  | none => simp only [h1]
  | some u =>
    cases h2 : parseInt sps text with
    | none => simp only [h1, h2]
    | some v =>
      exfalso
      unfold parseInt at h1 h2
      split at h1
      · simp at h1
      rename_i h1'
      split at h2
      · simp at h2
      rcases h with h | ⟨c, hc, h⟩
      · exact h1' (Or.inr (Or.inr h))
      · obtain ⟨d, hd, e1⟩ := parse_chars _ _ _ _ h1 c hc
        obtain ⟨d', hd', e2⟩ := parse_chars _ _ _ _ h2 c hc
        rw [e1] at e2
        cases e2
        exact h d hd hd' e1

example : ∃ c ∈ ['1', '3'], ∀ d, d < 10 → d < 3 → charValue c ≠ some d := ⟨'3', by simp, by decide⟩

/-- More than ten states per site: `int(s)` in base ten raises before the string is read in base `sps`.  On two sites with eleven states each the string `"a0"`,
ten bosons on site 0, denotes the state 110, which the bases of general lattices find; the chain refuses it. -/
theorem C114_fails_letters (w : Nat) (wide : Bool) (hw : 7 ≤ w) :
    occ 11 2 110 0 = 10 ∧ occ 11 2 110 1 = 0 ∧ 110 ∈ (List.range 121).reverse ∧
    Model.stateToInt w wide (List.range 121).reverse 11 ['a', '0'] = some 110 ∧
    ∀ rows, index 11 rows (.str ['a', '0']) = .error .text := by
  refine ⟨by decide, by decide, by simp, ?_, fun rows => C114_refused _ _ _ (Or.inr ⟨'a', by simp, by decide⟩)⟩
  have hp : parseInt 11 ['a', '0'] = some 110 := by decide
  unfold Model.stateToInt
  rw [hp]
  simp only
  have h2 : (110 : Nat) < 2 ^ w := lt_of_lt_of_le (by norm_num) (Nat.pow_le_pow_right (by omega) hw)
  rcases C16_index_partial w wide (List.range 121).reverse 110 h2 with ⟨i, h1, h3⟩ | ⟨_, h1⟩
  · rw [h1]
    simpa using h3
  · exact absurd (by simp) h1

/-- A string that is too short is not refused: leading zeros may be left out, whatever the number of sites. -/
theorem C114_fails_length (sps : Nat) (hsps : 2 ≤ sps) (rows : List Nat) (text : List Char) (h : text ≠ []) :
    index sps rows (.str ('0' :: text)) = index sps rows (.str text) := by
  have : ∀ base, 2 ≤ base → parseInt base ('0' :: text) = parseInt base text := by
    intro base hb
    unfold parseInt
    have h0 : parseDigit base (some 0) '0' = some 0 := by
      have : charValue '0' = some 0 := by decide
      unfold parseDigit
      rw [this]
      simp only
      rw [if_pos (by omega)]
      simp
    simp only [List.foldl_cons, h0]
    simp [h]
  unfold ChainIndex.index wanted
  simp only [this 10 (by omega), this sps hsps]

example : index 2 [3, 2, 1, 0] (.str ['1']) = .ok (.one 2) ∧ index 2 [3, 2, 1, 0] (.str ['0', '1']) = .ok (.one 2) := by decide

/-- A state held at several places has an array of places, and no integer. -/
theorem many_of_count (sps : Nat) (rows : List Nat) (s : Nat) (h : 2 ≤ rows.count s) :
    (∃ l, index sps rows (.int s) = .ok (.many l)) ∧ ChainIndex.stateToInt sps rows (.int s) = .error .several := by
  have key : ∃ l, index sps rows (.int s) = .ok (.many l) := by
    cases hi : index sps rows (.int s) with
    | error e =>
      have := ((C114_index sps rows s).2.2.1 ⟨e, hi⟩) s (List.count_pos_iff.1 (by omega))
      exact absurd rfl this
    | ok f =>
      cases f with
      | many l => exact ⟨l, rfl⟩
      | one i =>
        have h1 := ((C114_index sps rows s).1 i).1 hi
        exfalso
        have hd : List.Duplicate s rows := List.duplicate_iff_two_le_count.2 h
        obtain ⟨a, b, hab, e1, e2⟩ := List.duplicate_iff_exists_distinct_get.1 hd
        have f1 := (h1 a).1 ⟨s, List.getElem?_eq_some_iff.2 ⟨a.2, e1.symm⟩, rfl⟩
        have f2 := (h1 b).1 ⟨s, List.getElem?_eq_some_iff.2 ⟨b.2, e2.symm⟩, rfl⟩
        have : (a : Nat) < b := hab
        omega
  refine ⟨key, ?_⟩
  obtain ⟨l, hl⟩ := key
  unfold ChainIndex.stateToInt
  rw [hl]

/-- In blocks of momentum and reflection a state may be held twice.  For the chain of six spins with momentum 1 and even reflection, `index` of the state
`110100` returns an array of two places instead of an integer, and `state_to_int` raises. -/
theorem C114_fails_twice :
    let rows := (Chain.blockBasisList (· + 1) (fun _ => true)
      (Chain.keepT_P (Chain.checkT_Z (Chain.shiftOf (some 32) 1 (.twoLevel 6)) (Chain.flipLROf (some 32) (.twoLevel 6)) 1 6 1) 1 1 6 1) 64 0).map Prod.fst
    (∃ l, index 2 rows (.str ['1', '1', '0', '1', '0', '0']) = .ok (.many l)) ∧
    ChainIndex.stateToInt 2 rows (.str ['1', '1', '0', '1', '0', '0']) = .error .several := by
  intro rows
  have hs : index 2 rows (.str ['1', '1', '0', '1', '0', '0']) = index 2 rows (.int 52) :=
    C114_strings_partial 2 6 (by omega) (by omega) (by omega) rows 52 (by decide)
  have hc : 2 ≤ rows.count 52 := by
    have e1 : Chain.checkT_Z (Chain.shiftOf (some 32) 1 (.twoLevel 6)) (Chain.flipLROf (some 32) (.twoLevel 6)) 1 6 1 52 = (6, -1, 1) := by decide +kernel
    have e2 : Chain.sigmas 1 6 1 = [-1, 1] := by decide
    have e3 : Chain.keepT_P (Chain.checkT_Z (Chain.shiftOf (some 32) 1 (.twoLevel 6)) (Chain.flipLROf (some 32) (.twoLevel 6)) 1 6 1) 1 1 6 1 52 = [(-6, 0), (6, 0)] := by
      unfold Chain.keepT_P
      rw [e1, e2]
      simp
    have hv : 52 ∈ Chain.visited (· + 1) 64 0 := by decide
    obtain ⟨a, b, hab⟩ := List.append_of_mem hv
    show 2 ≤ List.count 52 (List.map Prod.fst (List.reverse _))
    rw [hab, List.map_reverse, List.count_reverse, List.flatMap_append, List.flatMap_cons, List.map_append, List.map_append, List.count_append, List.count_append, e3]
    have : List.count 52 (List.map Prod.fst (if (fun _ : Nat => true) 52 = true then List.map (fun d => (52, d)) [((-6 : Int), 0), (6, 0)] else [])) = 2 := by decide
    omega
  have := many_of_count 2 rows 52 hc
  unfold ChainIndex.stateToInt at this ⊢
  rw [hs]
  exact this

end Props
