import Verif.Model.Spinful
import Verif.Props.C03
import Verif.Proof.HcbBasis
import Mathlib.Tactic.Ring
namespace Proof.Spinful
open Model Model.Word Spec Proof.Gosper Proof.HcbBasis Proof.MakeBasis

theorem visit_chain (f : Nat → Nat) : ∀ (l : List Nat) (s nns : Nat), List.IsChain (fun a b => b = f a) (s :: l) →
    visit (fun s _ => f s) (l.length + 1) s nns = s :: l := by
  intro l
  induction l with
  | nil => intro s nns _; rfl
  | cons b l ih =>
    intro s nns h
    rw [List.isChain_cons_cons] at h
    rw [List.length_cons, visit]
    congr 1
    rw [← h.1]
    exact ih b _ h.2

theorem iterates_chain (w : Nat) : ∀ n s, List.IsChain (fun a b => b = nextStatePcon w a) (iterates w n s) := by
  intro n
  induction n with
  | zero => intro s; exact List.IsChain.nil
  | succ n ih =>
    intro s
    rw [iterates]
    cases n with
    | zero => exact List.IsChain.singleton _
    | succ n =>
      have := ih (nextStatePcon w s)
      rw [iterates] at this ⊢
      exact List.isChain_cons_cons.2 ⟨rfl, this⟩

theorem sector_chain (w N k : Nat) (hN : N ≤ w) : List.IsChain (fun a b => b = nextStatePcon w a) (sector N k) := by
  rw [← visit_sector w N k hN, visit_iterates]
  exact iterates_chain w _ _

/-- largest configuration with `d` particles -/
theorem le_top (N : Nat) : ∀ d x, d ≤ N → x < 2 ^ N → count N x = d → x ≤ (2 ^ d - 1) * 2 ^ (N - d) := by
  induction N with
  | zero => intro d x hd hx _; simp at hx; omega
  | succ N ih =>
    intro d x hd hx hc
    have hsplit : count (N + 1) x = count N (x % 2 ^ N) + x / 2 ^ N := by
      have e : x = x / 2 ^ N * 2 ^ N + x % 2 ^ N := by rw [Nat.mul_comm]; exact (Nat.div_add_mod _ _).symm
      have hr : x % 2 ^ N < 2 ^ N := Nat.mod_lt _ (Nat.two_pow_pos N)
      conv_lhs => rw [e]
      rw [count_mul_add N 1 _ _ hr]
      have hq : x / 2 ^ N < 2 := by rw [Nat.div_lt_iff_lt_mul (Nat.two_pow_pos N), Nat.mul_comm]; rwa [Nat.pow_succ] at hx
      rw [count_succ, count_zero]; generalize x / 2 ^ N = q at hq ⊢; omega
    have hr : x % 2 ^ N < 2 ^ N := Nat.mod_lt _ (Nat.two_pow_pos N)
    have hq : x / 2 ^ N < 2 := by rw [Nat.div_lt_iff_lt_mul (Nat.two_pow_pos N), Nat.mul_comm]; rwa [Nat.pow_succ] at hx
    have e : x = x / 2 ^ N * 2 ^ N + x % 2 ^ N := by rw [Nat.mul_comm]; exact (Nat.div_add_mod _ _).symm
    have hle := count_le N (x % 2 ^ N)
    rcases Nat.eq_zero_or_pos (x / 2 ^ N) with h0 | h0
    · rw [h0, Nat.zero_mul, Nat.zero_add] at e
      have := ih d (x % 2 ^ N) (by omega) hr (by omega)
      have h2 : 2 ^ (N - d) ≤ 2 ^ (N + 1 - d) := Nat.pow_le_pow_right (by omega) (by omega)
      rw [e]
      exact this.trans (Nat.mul_le_mul_left _ h2)
    · have h1 : x / 2 ^ N = 1 := by omega
      obtain ⟨c, rfl⟩ : ∃ c, d = c + 1 := ⟨d - 1, by omega⟩
      have := ih c (x % 2 ^ N) (by omega) hr (by omega)
      rw [h1, Nat.one_mul] at e
      rw [show N + 1 - (c + 1) = N - c by omega]
      have hp : 2 ^ N = 2 ^ c * 2 ^ (N - c) := by rw [← Nat.pow_add]; congr 1; omega
      have hc1 : 2 ^ (c + 1) - 1 = 2 ^ c + (2 ^ c - 1) := by have := Nat.two_pow_pos c; rw [Nat.pow_succ]; omega
      rw [hc1, Nat.add_mul, ← hp]
      omega

theorem top_mem (N d : Nat) (hd : d ≤ N) : (2 ^ d - 1) * 2 ^ (N - d) ∈ sector N d := by
  rw [count_lt_iff_sector]
  have h1 := Nat.two_pow_pos d
  have hp : 2 ^ N = 2 ^ d * 2 ^ (N - d) := by rw [← Nat.pow_add]; congr 1; omega
  constructor
  · rw [hp]; exact Nat.mul_lt_mul_of_pos_right (by omega) (Nat.two_pow_pos _)
  · have := count_mul_add (N - d) d (2 ^ d - 1) 0 (Nat.two_pow_pos _)
    rw [Nat.add_zero, count_of_zero, Nat.zero_add, count_ones, show N - d + d = N by omega] at this
    exact this

section
variable {w N : Nat}

theorem ones_shift (hN : N ≤ w) : ones w >>> (w - N) = 2 ^ N - 1 := by
  unfold ones
  rw [Nat.shiftRight_eq_div_pow]
  have : 2 ^ w = 2 ^ N * 2 ^ (w - N) := by rw [← Nat.pow_add]; congr 1; omega
  have h1 := Nat.two_pow_pos (w - N)
  have h2 := Nat.two_pow_pos N
  rw [this]
  have e : 2 ^ N * 2 ^ (w - N) - 1 = (2 ^ N - 1) * 2 ^ (w - N) + (2 ^ (w - N) - 1) := by
    rw [Nat.sub_mul]
    have : 2 ^ (w - N) ≤ 2 ^ N * 2 ^ (w - N) := Nat.le_mul_of_pos_left _ h2
    omega
  rw [e, Nat.mul_comm, Nat.mul_add_div h1, Nat.div_eq_of_lt (by omega), Nat.add_zero]

theorem split_comb (hN : N ≤ w) (l r : Nat) (hr : r < 2 ^ N) : splitState w N (l * 2 ^ N + r) = (l, r) := by
  unfold splitState
  rw [ones_shift hN, Nat.and_comm, Nat.and_two_pow_sub_one_eq_mod, Nat.shiftRight_eq_div_pow,
    Nat.mul_comm, Nat.mul_add_div (Nat.two_pow_pos N), Nat.div_eq_of_lt hr, Nat.add_zero, Nat.mul_add_mod,
    Nat.mod_eq_of_lt hr]

theorem comb_eq (h2 : 2 * N ≤ w) (l r : Nat) (hl : l < 2 ^ N) (hr : r < 2 ^ N) :
    combState w N l r = l * 2 ^ N + r := by
  unfold combState add shl
  rw [Nat.shiftLeft_eq]
  have hp : 2 ^ N * 2 ^ N ≤ 2 ^ w := by rw [← Nat.pow_add]; exact Nat.pow_le_pow_right (by omega) (by omega)
  have h1 : l * 2 ^ N + r < 2 ^ N * 2 ^ N := by
    calc l * 2 ^ N + r < l * 2 ^ N + 2 ^ N := by omega
      _ = (l + 1) * 2 ^ N := by ring
      _ ≤ _ := Nat.mul_le_mul_right _ hl
  have h3 : l * 2 ^ N < 2 ^ w := by
    generalize l * 2 ^ N = a at *
    generalize 2 ^ N * 2 ^ N = b at *
    omega
  rw [Nat.mod_eq_of_lt h3, Nat.mod_eq_of_lt (by omega)]

theorem minmax_eq (h8 : 8 ∣ w) (h2 : 2 * N ≤ w) (h0 : 0 < N) (d r : Nat) (hd : d < 256)
    (hc : count N r = d) : rightMinMax w N r = (2 ^ d - 1, (2 ^ d - 1) * 2 ^ (N - d)) := by
  obtain ⟨B, rfl⟩ := h8
  have hdN : d ≤ N := by rw [← hc]; exact count_le N r
  unfold rightMinMax
  rw [Nat.mul_div_cancel_left _ (by decide), (Props.C03_count_exact_iff B r N).2 ⟨by omega, by omega⟩, hc]
  simp only [Option.getD_some]
  by_cases hz : d = 0
  · subst hz; simp
  · rw [if_pos hz, ones_shift (by omega : d ≤ 8 * B)]
    unfold shl
    rw [Nat.shiftLeft_eq, Nat.mod_eq_of_lt]
    have := ((count_lt_iff_sector).1 (top_mem N d hdN)).1
    exact Nat.lt_of_lt_of_le this (Nat.pow_le_pow_right (by omega) (by omega))

end

/-- the product enumeration, for every function that steps through the right halves and then moves the left one -/
theorem visit_product (next : Nat → Nat) (w N u d : Nat) (hNw : N ≤ w)
    (hstep : ∀ l ∈ sector N u, ∀ a ∈ sector N d, a < (2 ^ d - 1) * 2 ^ (N - d) → nextStatePcon w a < 2 ^ N →
      next (l * 2 ^ N + a) = l * 2 ^ N + nextStatePcon w a)
    (hwrap : ∀ l ∈ sector N u, ∀ a ∈ sector N d, ¬ a < (2 ^ d - 1) * 2 ^ (N - d) → nextStatePcon w l ∈ sector N u →
      next (l * 2 ^ N + a) = nextStatePcon w l * 2 ^ N + (2 ^ d - 1)) :
    visit (fun s _ => next s) (N.choose u * N.choose d) (spinfulS0 N (u, d)) 0
      = (sector N u).flatMap fun l => (sector N d).map fun r => l * 2 ^ N + r := by
  by_cases hu : N < u
  · rw [Nat.choose_eq_zero_of_lt hu, Nat.zero_mul, sector_of_gt N u hu]; rfl
  by_cases hdN : N < d
  · rw [Nat.choose_eq_zero_of_lt hdN, Nat.mul_zero, sector_of_gt N d hdN]; simp [visit]
  have hmem : ∀ k x, x ∈ sector N k → x < 2 ^ N ∧ count N x = k := fun k x h => count_lt_iff_sector.1 h
  have hcR := sector_chain w N d (by omega)
  have hcL := sector_chain w N u (by omega)
  -- one row
  have row : ∀ l ∈ sector N u, List.IsChain (fun a b => b = next a) ((sector N d).map fun r => l * 2 ^ N + r) := by
    intro l hl
    rw [List.isChain_map]
    have hinc := sector_increasing N d
    have : List.IsChain (fun a b => (b = nextStatePcon w a ∧ a < b) ∧ a ∈ sector N d ∧ b ∈ sector N d) (sector N d) := by
      have h1 : List.IsChain (fun a b => b = nextStatePcon w a ∧ a < b) (sector N d) := by
        have h3 : List.IsChain (fun a b : Nat => a < b) (sector N d) := hinc.isChain
        clear hinc
        revert h3 hcR
        generalize sector N d = L
        intro hcR h3
        induction L with
        | nil => exact List.IsChain.nil
        | cons a L ih =>
          cases L with
          | nil => exact List.IsChain.singleton _
          | cons b L =>
            rw [List.isChain_cons_cons] at hcR h3 ⊢
            exact ⟨⟨hcR.1, h3.1⟩, ih hcR.2 h3.2⟩
      exact h1.imp_of_mem_imp (fun a b ha hb h => ⟨h, ha, hb⟩)
    refine this.imp ?_
    rintro a b ⟨⟨h1, h3⟩, ha, hb⟩
    obtain ⟨ha1, ha2⟩ := hmem d a ha
    obtain ⟨hb1, hb2⟩ := hmem d b hb
    have hlt : a < (2 ^ d - 1) * 2 ^ (N - d) := Nat.lt_of_lt_of_le h3 (le_top N d b (by omega) hb1 hb2)
    rw [hstep l hl a ha hlt (by rw [← h1]; exact hb1), ← h1]
  have hne : sector N d ≠ [] := List.ne_nil_of_mem (top_mem N d (by omega))
  have hhead : ∀ k, k ≤ N → (sector N k).head? = some (2 ^ k - 1) := by
    intro k hk
    have := visit_sector w N k (by omega)
    rw [visit_iterates] at this
    rw [← this, s0_eq]
    have := Nat.choose_pos hk
    obtain ⟨n, hn⟩ : ∃ n, N.choose k = n + 1 := ⟨N.choose k - 1, by omega⟩
    rw [hn, iterates]; rfl
  -- all rows
  have all : ∀ L : List Nat, List.IsChain (fun a b => b = nextStatePcon w a) L → (∀ x ∈ L, x ∈ sector N u) →
      List.IsChain (fun a b => b = next a) (L.flatMap fun l => (sector N d).map fun r => l * 2 ^ N + r) := by
    intro L hL hb
    induction L with
    | nil => exact List.IsChain.nil
    | cons l L ih =>
      have hl := hb l (by simp)
      rw [List.flatMap_cons, List.isChain_append]
      refine ⟨row l hl, ih hL.tail fun x hx => hb x (by simp [hx]), ?_⟩
      intro x hx y hy
      cases L with
      | nil => simp at hy
      | cons l' L =>
        rw [List.isChain_cons_cons] at hL
        have hl' := hb l' (by simp)
        -- x is the last of the row
        rw [List.getLast?_map, Option.mem_def, Option.map_eq_some_iff] at hx
        obtain ⟨a, ha, rfl⟩ := hx
        have ham := List.mem_of_getLast? ha
        obtain ⟨ha1, ha2⟩ := hmem d a ham
        have hlast : (2 ^ d - 1) * 2 ^ (N - d) ≤ a := by
          have h1 := top_mem N d (by omega)
          rw [List.getLast?_eq_some_iff] at ha
          obtain ⟨p, hp⟩ := ha
          have hinc := sector_increasing N d
          rw [hp] at h1 hinc
          rw [List.pairwise_append] at hinc
          rcases List.mem_append.1 h1 with h3 | h3
          · exact Nat.le_of_lt (hinc.2.2 _ h3 a (by simp))
          · simp at h3; omega
        -- y is the first of the next row
        have hy2 : y = l' * 2 ^ N + (2 ^ d - 1) := by
          rw [List.flatMap_cons, List.head?_append, List.head?_map, hhead d (by omega)] at hy
          simpa using hy.symm
        rw [hy2, hwrap l hl a ham (by omega) (by rw [← hL.1]; exact hl'), ← hL.1]
  have hchain := all (sector N u) hcL fun x hx => hx
  have hlen : ((sector N u).flatMap fun l => (sector N d).map fun r => l * 2 ^ N + r).length = N.choose u * N.choose d := by
    rw [List.length_flatMap]
    simp [sector_length]
  have hh : ((sector N u).flatMap fun l => (sector N d).map fun r => l * 2 ^ N + r).head? = some (spinfulS0 N (u, d)) := by
    have h1 := hhead u (by omega)
    cases hs : sector N u with
    | nil => rw [hs] at h1; simp at h1
    | cons a L =>
      rw [hs] at h1
      simp only [List.head?_cons, Option.some.injEq] at h1
      rw [List.flatMap_cons, List.head?_append, List.head?_map, hhead d (by omega)]
      simp only [Option.map_some, Option.some_or, spinfulS0]
      rw [s0_eq, s0_eq, Nat.shiftLeft_eq, h1, Nat.add_comm]
  revert hchain hlen hh
  generalize (sector N u).flatMap (fun l => (sector N d).map fun r => l * 2 ^ N + r) = L
  intro hchain hlen hh
  cases L with
  | nil => simp at hh
  | cons a L =>
    simp only [List.head?_cons, Option.some.injEq] at hh
    subst hh
    rw [← hlen, List.length_cons]
    exact visit_chain _ L _ 0 hchain

/-- the product enumeration -/
theorem visit_spinful (w N u d : Nat) (h8 : 8 ∣ w) (h2 : 2 * N ≤ w) (h0 : 0 < N) (hd : d < 256) :
    visit (fun s _ => spinfulNext w N s) (N.choose u * N.choose d) (spinfulS0 N (u, d)) 0
      = (sector N u).flatMap fun l => (sector N d).map fun r => l * 2 ^ N + r := by
  have hmem : ∀ k x, x ∈ sector N k → x < 2 ^ N ∧ count N x = k := fun k x h => count_lt_iff_sector.1 h
  refine visit_product _ w N u d (by omega) ?_ ?_
  · intro l hl a ha hlt hb
    obtain ⟨ha1, ha2⟩ := hmem d a ha
    unfold spinfulNext
    rw [split_comb (by omega) l a ha1]
    simp only
    rw [minmax_eq h8 h2 h0 d a hd ha2]
    simp only
    rw [if_pos hlt, comb_eq h2 l _ (hmem u l hl).1 hb]
  · intro l hl a ha hlt hb
    obtain ⟨ha1, ha2⟩ := hmem d a ha
    have hdN : d ≤ N := by rw [← ha2]; exact count_le N a
    unfold spinfulNext
    rw [split_comb (by omega) l a ha1]
    simp only
    rw [minmax_eq h8 h2 h0 d a hd ha2]
    simp only
    rw [if_neg hlt, comb_eq h2 _ _ (hmem u _ hb).1]
    have := Nat.pow_le_pow_right (n := 2) (by omega) hdN
    have := Nat.two_pow_pos d
    omega

end Proof.Spinful
