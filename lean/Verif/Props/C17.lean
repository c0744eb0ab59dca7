import Verif.Model.StateStrings
import Verif.Proof.Digits
import Verif.Props.C16
import Mathlib.Data.List.Induction
/-!
C17  State strings and integers are inverse encodings.

`Spec.occ b N s i` is the occupation of site `i` (site 0 leftmost).  `Model.intToState sps N s false` is
`int_to_state(s, bracket_notation=False)`, `Model.parseInt` is python's `int(text, base)`,
`Model.stateToInt` is `state_to_int`.
-/
namespace Props
open Model Spec Proof.Digits

theorem siteValue_eq (sps N s i : Nat) : siteValue sps N s i = occ sps N s i := by
  unfold siteValue occ digit
  rw [show N - i - 1 = N - 1 - i by omega]

theorem filter_join (l : List (List Char)) :
    (joinSpace l).filter (· ≠ ' ') = (l.map fun a => a.filter (· ≠ ' ')).flatten := by
  induction l with
  | nil => rfl
  | cons a l ih =>
    cases l with
    | nil => simp [joinSpace]
    | cons b l =>
      rw [joinSpace, List.filter_append, List.filter_cons_of_neg (by simp), ih]
      simp

theorem digitChar_ne_space (d : Nat) (h : d < 10) : Nat.digitChar d ≠ ' ' := by
  intro e
  have := Nat.toNat_digitChar_of_lt_ten h
  rw [e] at this
  have h32 : (' ' : Char).toNat = 32 := by decide
  omega

theorem padded_filter (width d : Nat) (h : d < 10) :
    (padded width d).filter (· ≠ ' ') = [Nat.digitChar d] := by
  unfold padded pyStr
  rw [Nat.toDigits_of_lt_base h, List.filter_append]
  rw [List.filter_eq_nil_iff.2 (by intro c hc; rw [List.eq_of_mem_replicate hc]; simp)]
  simp [digitChar_ne_space d h]

/-- With at most 10 levels and 64 sites the string lists the occupations, one digit per site, site 0
first. -/
theorem C17_string (sps N : Nat) (hsps : 0 < sps) (h10 : sps ≤ 10) (hN : N ≤ 64) (s : Nat) :
    intToState sps N s false = (List.range N).map fun i => Nat.digitChar (occ sps N s i) := by
  unfold intToState siteString
  rw [if_neg (by simp), if_pos hN, filter_join, List.map_map]
  rw [show ((fun a => List.filter (fun x => decide (x ≠ ' ')) a) ∘ fun i => padded (pyStr sps).length (siteValue sps N s i))
      = fun i => [Nat.digitChar (occ sps N s i)] from ?_]
  · rw [← List.flatMap_def]
    induction List.range N with
    | nil => rfl
    | cons a l ih => simp [ih]
  · funext i
    simp only [Function.comp]
    rw [siteValue_eq, padded_filter]
    have := digit_lt sps s (N - 1 - i) hsps
    unfold occ; omega

theorem charValue_digit (d : Nat) (h : d < 10) : charValue (Nat.digitChar d) = some d := by
  have := Nat.toNat_digitChar_of_lt_ten h
  unfold charValue
  rw [this, if_pos (by omega)]
  simp

theorem parse_digits (base : Nat) (hb : base ≤ 10) (ds : List Nat) (hd : ∀ d ∈ ds, d < base) (a : Nat) :
    (ds.map Nat.digitChar).foldl (parseDigit base) (some a) = some (ds.foldl (fun a d => a * base + d) a) := by
  induction ds generalizing a with
  | nil => rfl
  | cons d ds ih =>
    have hd0 := hd d (by simp)
    rw [List.map_cons, List.foldl_cons, List.foldl_cons]
    unfold parseDigit
    rw [charValue_digit d (by omega)]
    simp only [if_pos hd0]
    exact ih (fun x hx => hd x (by simp [hx])) _

theorem fold_occ (b s : Nat) : ∀ N, ((List.range N).map (occ b N s)).foldl (fun a d => a * b + d) 0 = s % b ^ N := by
  intro N
  induction N generalizing s with
  | zero => simp [Nat.mod_one]
  | succ N ih =>
    rw [List.range_succ, List.map_append, List.foldl_append]
    have e : (List.range N).map (occ b (N + 1) s) = (List.range N).map (occ b N (s / b)) := by
      apply List.map_congr_left
      intro i hi
      have : i < N := by simpa using hi
      unfold occ
      rw [show N + 1 - 1 - i = (N - 1 - i) + 1 by omega, digit_succ]
    rw [e, ih]
    simp only [List.map_cons, List.map_nil, List.foldl_cons, List.foldl_nil]
    unfold occ
    rw [show N + 1 - 1 - N = 0 by omega, digit_zero, Nat.pow_succ, Nat.mul_comm (b ^ N) b, Nat.mod_mul]
    ring_nf

/-- Reading the string of a state gives the state back.  Missing for the full claim: more than 10
levels per site and more than 64 sites, where it is false (`C17_eleven_levels`, `C17_sixty_five_sites`). -/
theorem C17_round_trip_partial (sps N : Nat) (hsps : 2 ≤ sps) (h10 : sps ≤ 10) (hN0 : 0 < N) (hN : N ≤ 64)
    (s : Nat) (hs : s < sps ^ N) : parseInt sps (intToState sps N s false) = some s := by
  rw [C17_string sps N (by omega) h10 hN]
  unfold parseInt
  rw [if_neg, show (List.range N).map (fun i => Nat.digitChar (occ sps N s i))
      = ((List.range N).map (occ sps N s)).map Nat.digitChar by simp,
    parse_digits sps h10, fold_occ sps s, Nat.mod_eq_of_lt hs]
  · intro d hd
    simp only [List.mem_map] at hd
    obtain ⟨i, _, rfl⟩ := hd
    exact digit_lt _ _ _ (by omega)
  · simp; omega

/-- The other direction: every string of `N` digits below `sps` is the string of exactly one state
below `sps^N`, the one it denotes in base `sps`.
Missing: more than 10 levels per site and more than 64 sites (`C17_eleven_levels`, `C17_ambiguous`, `C17_sixty_five_sites`). -/
theorem C17_strings_partial (sps N : Nat) (hsps : 2 ≤ sps) (h10 : sps ≤ 10) (hN : N ≤ 64)
    (ds : List Nat) (hlen : ds.length = N) (hd : ∀ d ∈ ds, d < sps) :
    ∃ s < sps ^ N, intToState sps N s false = ds.map Nat.digitChar ∧
      ∀ t < sps ^ N, intToState sps N t false = ds.map Nat.digitChar → t = s := by
  have ex : ∃ s < sps ^ N, (List.range N).map (occ sps N s) = ds := by
    clear hN
    subst hlen
    induction ds using List.reverseRecOn with
    | nil => exact ⟨0, by simp, by simp⟩
    | append_singleton ds d ih =>
      obtain ⟨s, hs, he⟩ := ih (fun x hx => hd x (by simp [hx]))
      have hd0 : d < sps := hd d (by simp)
      refine ⟨s * sps + d, ?_, ?_⟩
      · rw [List.length_append, List.length_singleton, Nat.pow_succ]
        calc s * sps + d < s * sps + sps := by omega
          _ = (s + 1) * sps := by ring
          _ ≤ _ := Nat.mul_le_mul_right _ hs
      · rw [List.length_append, List.length_singleton, List.range_succ, List.map_append]
        congr 1
        · conv_rhs => rw [← he]
          apply List.map_congr_left
          intro i hi
          have : i < ds.length := by simpa using hi
          unfold occ
          rw [show ds.length + 1 - 1 - i = (ds.length - 1 - i) + 1 by omega, digit_succ]
          congr 1
          rw [Nat.mul_comm, Nat.mul_add_div (by omega), Nat.div_eq_of_lt hd0, Nat.add_zero]
        · simp only [List.map_cons, List.map_nil, occ]
          rw [show ds.length + 1 - 1 - ds.length = 0 by omega, digit_zero, Nat.mul_comm, Nat.mul_add_mod,
            Nat.mod_eq_of_lt hd0]
  obtain ⟨s, hs, he⟩ := ex
  refine ⟨s, hs, ?_, ?_⟩
  · rw [C17_string sps N (by omega) h10 hN, ← he, List.map_map]; rfl
  · intro t ht h
    rcases Nat.eq_zero_or_pos N with h0 | h0
    · subst h0; simp at hs ht; omega
    · have h1 := C17_round_trip_partial sps N hsps h10 h0 hN t ht
      have h2 := C17_round_trip_partial sps N hsps h10 h0 hN s hs
      rw [h] at h1
      rw [C17_string sps N (by omega) h10 hN, show (List.range N).map (fun i => Nat.digitChar (occ sps N s i))
        = ((List.range N).map (occ sps N s)).map Nat.digitChar by simp, he] at h2
      rw [h1] at h2
      exact Option.some.inj h2

/-- `state_to_int` undoes `int_to_state` on the states of a basis.
Missing: more than 10 levels per site and more than 64 sites (`C17_eleven_levels`, `C17_ambiguous`, `C17_sixty_five_sites`). -/
theorem C17_basis_round_trip_partial (w : Nat) (wide : Bool) (A : List Nat) (sps N : Nat) (hsps : 2 ≤ sps)
    (h10 : sps ≤ 10) (hN0 : 0 < N) (hN : N ≤ 64) (s : Nat) (hs : s < sps ^ N) (hw : s < 2 ^ w) (hm : s ∈ A) :
    stateToInt w wide A sps (intToState sps N s false) = some s := by
  unfold stateToInt
  rw [C17_round_trip_partial sps N hsps h10 hN0 hN s hs]
  simp only
  rcases C16_index_partial w wide A s hw with ⟨i, h1, h2⟩ | ⟨_, h2⟩
  · rw [h1]; exact h2
  · exact absurd hm h2

/-! The bracket notation separates the sites by spaces and pads to equal width, so it is unambiguous
for any number of levels. -/

theorem padded_length (sps d : Nat) (h : d < sps) : (padded (pyStr sps).length d).length = (pyStr sps).length := by
  unfold padded pyStr
  rw [List.length_append, List.length_replicate]
  have : (Nat.toDigits 10 d).length ≤ (Nat.toDigits 10 sps).length := by
    rw [Nat.length_toDigits_le_iff (by decide) Nat.length_toDigits_pos]
    have := (Nat.length_toDigits_le_iff (b := 10) (n := sps) (k := (Nat.toDigits 10 sps).length) (by decide)
      Nat.length_toDigits_pos).1 (Nat.le_refl _)
    omega
  omega

theorem padded_inj (w d e : Nat) (h : padded w d = padded w e) : d = e := by
  have key : ∀ d, (padded w d).filter (· ≠ ' ') = Nat.toDigits 10 d := by
    intro d
    unfold padded pyStr
    rw [List.filter_append, List.filter_eq_nil_iff.2 (by intro c hc; rw [List.eq_of_mem_replicate hc]; simp),
      List.nil_append, List.filter_eq_self]
    intro c hc
    have := Nat.isDigit_of_mem_toDigits (by decide) (Nat.le_refl 10) hc
    simp only [ne_eq, decide_not, Bool.not_eq_eq_eq_not, Bool.not_true, decide_eq_false_iff_not]
    rintro rfl
    revert this
    decide
  have := key d
  rw [h, key e] at this
  rw [← Nat.ofDigitChars_ten_toDigits (n := d), ← this, Nat.ofDigitChars_ten_toDigits]

theorem join_inj (w : Nat) (hw : 0 < w) (l m : List (List Char)) (hl : ∀ a ∈ l, a.length = w) (hm : ∀ a ∈ m, a.length = w)
    (h : joinSpace l = joinSpace m) : l = m := by
  induction l generalizing m with
  | nil =>
    cases m with
    | nil => rfl
    | cons b m =>
      have hb := hm b (by simp)
      cases m <;> simp [joinSpace] at h
      subst h; simp at hb; omega
  | cons a l ih =>
    have ha := hl a (by simp)
    cases m with
    | nil =>
      cases l <;> simp [joinSpace] at h
      subst h; simp at ha; omega
    | cons b m =>
      have hb := hm b (by simp)
      have hl' : ∀ x ∈ l, x.length = w := fun x hx => hl x (by simp [hx])
      have hm' : ∀ x ∈ m, x.length = w := fun x hx => hm x (by simp [hx])
      cases l with
      | nil =>
        cases m with
        | nil => simpa [joinSpace] using h
        | cons c m =>
          exfalso
          have := congrArg List.length h
          simp [joinSpace, ha, hb] at this
      | cons c l =>
        cases m with
        | nil =>
          exfalso
          have := congrArg List.length h
          simp [joinSpace, ha, hb] at this
        | cons d m =>
          rw [joinSpace, joinSpace] at h
          obtain ⟨h1, h2⟩ := List.append_inj h (by omega)
          rw [h1, ih _ hl' hm' (List.cons.inj h2).2]

/-- Different states have different strings in bracket notation: any number of levels, up to 64 sites.
Missing: more than 64 sites (`C17_sixty_five_sites`). -/
theorem C17_bracket_partial (sps N : Nat) (hN : N ≤ 64) (s t : Nat) (hs : s < sps ^ N) (ht : t < sps ^ N)
    (h : intToState sps N s true = intToState sps N t true) : s = t := by
  rcases Nat.eq_zero_or_pos N with h0 | h0
  · subst h0; simp at hs ht; omega
  have hsps : 0 < sps := by
    rcases Nat.eq_zero_or_pos sps with h1 | h1
    · subst h1; rw [Nat.zero_pow h0] at hs; omega
    · exact h1
  unfold intToState siteString at h
  rw [if_pos rfl, if_pos rfl, if_pos hN, if_pos hN] at h
  have h1 : joinSpace _ = joinSpace _ := List.append_cancel_right (List.cons.inj h).2
  have hlen : ∀ s, ∀ a ∈ (List.range N).map (fun i => padded (pyStr sps).length (siteValue sps N s i)),
      a.length = (pyStr sps).length := by
    intro s a ha
    simp only [List.mem_map] at ha
    obtain ⟨i, _, rfl⟩ := ha
    exact padded_length _ _ (Nat.mod_lt _ hsps)
  have h2 := join_inj _ Nat.length_toDigits_pos _ _ (hlen s) (hlen t) h1
  apply digit_ext sps N s t hs ht
  intro i hi
  have h3 := congrArg (fun l => l[N - 1 - i]?) h2
  simp only [List.getElem?_map, List.getElem?_range (show N - 1 - i < N by omega), Option.map_some] at h3
  have h4 := padded_inj _ _ _ (Option.some.inj h3)
  rw [siteValue_eq, siteValue_eq] at h4
  unfold occ at h4
  rwa [show N - 1 - (N - 1 - i) = i by omega] at h4

/-- Eleven levels: the string of the state 10 of one site reads as 11, which is no state. -/
theorem C17_eleven_levels : parseInt 11 (intToState 11 1 10 false) = some 11 := by decide +kernel

/-- On three sites two states have the same string. -/
theorem C17_ambiguous : intToState 11 3 (1 * 121 + 0 * 11 + 10) false = intToState 11 3 (10 * 121 + 1 * 11 + 0) false := by
  decide +kernel

/-- 65 sites: the middle of the string is replaced by dots, so it cannot be read back, and different
states have the same string even in bracket notation. -/
theorem C17_sixty_five_sites : parseInt 2 (intToState 2 65 0 false) = none ∧
    intToState 2 65 (2 ^ 32) true = intToState 2 65 0 true := by decide +kernel

example : intToState 3 4 (2 * 27 + 0 * 9 + 1 * 3 + 2) false = "2012".toList := by decide +kernel
example : stateToInt 32 false [59, 5] 3 "2012".toList = some 59 := by decide +kernel
example : intToState 11 2 120 true = "|10 10>".toList := by decide +kernel

end Props
