import Verif.Proof.Boson
/-!
The intermediate values of the boson successor never leave the chosen type: for every supported
width and every `3 ≤ sps ≤ 256` the (complete, finite) table of pairs is checked by the kernel and
lifted to all numbers of sites and particles.
-/
namespace Proof.Boson
open Spec Model Proof.Digits

/-- for each width, the number of base-`b` digits of `2^w`, `b = 3, 4, …, 256` -/
def digitTable : List (Nat × List Nat) := [
    (32, [21, 17, 14, 13, 12, 11, 11, 10, 10, 9, 9, 9, 9, 9, 8, 8, 8, 8, 8, 8, 8, 7, 7, 7, 7, 7, 7, 7, 7, 7,
    7, 7, 7, 7, 7, 7, 7, 7, 6, 6, 6, 6, 6, 6, 6, 6, 6, 6, 6, 6, 6, 6, 6, 6, 6, 6, 6, 6, 6, 6, 6, 6, 6, 6, 6,
    6, 6, 6, 6, 6, 6, 6, 6, 6, 6, 6, 6, 6, 6, 6, 6, 6, 5, 5, 5, 5, 5, 5, 5, 5, 5, 5, 5, 5, 5, 5, 5, 5, 5, 5,
    5, 5, 5, 5, 5, 5, 5, 5, 5, 5, 5, 5, 5, 5, 5, 5, 5, 5, 5, 5, 5, 5, 5, 5, 5, 5, 5, 5, 5, 5, 5, 5, 5, 5, 5,
    5, 5, 5, 5, 5, 5, 5, 5, 5, 5, 5, 5, 5, 5, 5, 5, 5, 5, 5, 5, 5, 5, 5, 5, 5, 5, 5, 5, 5, 5, 5, 5, 5, 5, 5,
    5, 5, 5, 5, 5, 5, 5, 5, 5, 5, 5, 5, 5, 5, 5, 5, 5, 5, 5, 5, 5, 5, 5, 5, 5, 5, 5, 5, 5, 5, 5, 5, 5, 5, 5,
    5, 5, 5, 5, 5, 5, 5, 5, 5, 5, 5, 5, 5, 5, 5, 5, 5, 5, 5, 5, 5, 5, 5, 5, 5, 5, 5, 5, 5, 5, 5, 5, 5, 5, 5,
    5, 5, 5, 5, 5, 5, 5, 5, 5, 5, 5, 5, 5, 5]),
    (64, [41, 33, 28, 25, 23, 22, 21, 20, 19, 18, 18, 17, 17, 17, 16, 16, 16, 15, 15, 15, 15, 14, 14, 14, 14,
    14, 14, 14, 13, 13, 13, 13, 13, 13, 13, 13, 13, 13, 12, 12, 12, 12, 12, 12, 12, 12, 12, 12, 12, 12, 12,
    12, 12, 12, 11, 11, 11, 11, 11, 11, 11, 11, 11, 11, 11, 11, 11, 11, 11, 11, 11, 11, 11, 11, 11, 11, 11,
    11, 11, 11, 11, 11, 10, 10, 10, 10, 10, 10, 10, 10, 10, 10, 10, 10, 10, 10, 10, 10, 10, 10, 10, 10, 10,
    10, 10, 10, 10, 10, 10, 10, 10, 10, 10, 10, 10, 10, 10, 10, 10, 10, 10, 10, 10, 10, 10, 10, 10, 10, 10,
    10, 10, 10, 10, 10, 10, 10, 9, 9, 9, 9, 9, 9, 9, 9, 9, 9, 9, 9, 9, 9, 9, 9, 9, 9, 9, 9, 9, 9, 9, 9, 9, 9,
    9, 9, 9, 9, 9, 9, 9, 9, 9, 9, 9, 9, 9, 9, 9, 9, 9, 9, 9, 9, 9, 9, 9, 9, 9, 9, 9, 9, 9, 9, 9, 9, 9, 9, 9,
    9, 9, 9, 9, 9, 9, 9, 9, 9, 9, 9, 9, 9, 9, 9, 9, 9, 9, 9, 9, 9, 9, 9, 9, 9, 9, 9, 9, 9, 9, 9, 9, 9, 9, 9,
    9, 9, 9, 9, 9, 9, 9, 9, 9, 9, 9, 9, 9, 9, 9, 9, 9, 9, 9, 9, 9, 9]),
    (256, [162, 129, 111, 100, 92, 86, 81, 78, 75, 72, 70, 68, 66, 65, 63, 62, 61, 60, 59, 58, 57, 56, 56, 55,
    54, 54, 53, 53, 52, 52, 51, 51, 50, 50, 50, 49, 49, 49, 48, 48, 48, 47, 47, 47, 47, 46, 46, 46, 46, 45,
    45, 45, 45, 45, 44, 44, 44, 44, 44, 43, 43, 43, 43, 43, 43, 43, 42, 42, 42, 42, 42, 42, 42, 41, 41, 41,
    41, 41, 41, 41, 41, 41, 40, 40, 40, 40, 40, 40, 40, 40, 40, 40, 39, 39, 39, 39, 39, 39, 39, 39, 39, 39,
    39, 39, 38, 38, 38, 38, 38, 38, 38, 38, 38, 38, 38, 38, 38, 38, 38, 37, 37, 37, 37, 37, 37, 37, 37, 37,
    37, 37, 37, 37, 37, 37, 37, 37, 36, 36, 36, 36, 36, 36, 36, 36, 36, 36, 36, 36, 36, 36, 36, 36, 36, 36,
    36, 36, 36, 35, 35, 35, 35, 35, 35, 35, 35, 35, 35, 35, 35, 35, 35, 35, 35, 35, 35, 35, 35, 35, 35, 35,
    35, 35, 34, 34, 34, 34, 34, 34, 34, 34, 34, 34, 34, 34, 34, 34, 34, 34, 34, 34, 34, 34, 34, 34, 34, 34,
    34, 34, 34, 34, 34, 34, 34, 34, 33, 33, 33, 33, 33, 33, 33, 33, 33, 33, 33, 33, 33, 33, 33, 33, 33, 33,
    33, 33, 33, 33, 33, 33, 33, 33, 33, 33, 33, 33, 33, 33, 33, 33, 33, 33, 33, 33, 33, 33]),
    (1024, [647, 513, 442, 397, 365, 342, 324, 309, 297, 286, 277, 269, 263, 257, 251, 246, 242, 237, 234,
    230, 227, 224, 221, 218, 216, 214, 211, 209, 207, 205, 203, 202, 200, 199, 197, 196, 194, 193, 192, 190,
    189, 188, 187, 186, 185, 184, 183, 182, 181, 180, 179, 178, 178, 177, 176, 175, 175, 174, 173, 172, 172,
    171, 171, 170, 169, 169, 168, 168, 167, 166, 166, 165, 165, 164, 164, 163, 163, 162, 162, 162, 161, 161,
    160, 160, 159, 159, 159, 158, 158, 157, 157, 157, 156, 156, 156, 155, 155, 155, 154, 154, 154, 153, 153,
    153, 152, 152, 152, 152, 151, 151, 151, 150, 150, 150, 150, 149, 149, 149, 149, 148, 148, 148, 148, 147,
    147, 147, 147, 146, 146, 146, 146, 145, 145, 145, 145, 145, 144, 144, 144, 144, 144, 143, 143, 143, 143,
    143, 142, 142, 142, 142, 142, 141, 141, 141, 141, 141, 141, 140, 140, 140, 140, 140, 140, 139, 139, 139,
    139, 139, 139, 138, 138, 138, 138, 138, 138, 137, 137, 137, 137, 137, 137, 137, 136, 136, 136, 136, 136,
    136, 136, 136, 135, 135, 135, 135, 135, 135, 135, 134, 134, 134, 134, 134, 134, 134, 134, 133, 133, 133,
    133, 133, 133, 133, 133, 133, 132, 132, 132, 132, 132, 132, 132, 132, 132, 131, 131, 131, 131, 131, 131,
    131, 131, 131, 131, 130, 130, 130, 130, 130, 130, 130, 130, 130, 130, 129, 129, 129, 129, 129, 129, 129,
    129, 129, 129, 129]),
    (4096, [2585, 2049, 1765, 1585, 1460, 1366, 1293, 1234, 1185, 1143, 1107, 1076, 1049, 1025, 1003, 983,
    965, 948, 933, 919, 906, 894, 883, 872, 862, 853, 844, 835, 827, 820, 812, 806, 799, 793, 787, 781, 775,
    770, 765, 760, 755, 751, 746, 742, 738, 734, 730, 726, 723, 719, 716, 712, 709, 706, 703, 700, 697, 694,
    691, 688, 686, 683, 681, 678, 676, 673, 671, 669, 667, 664, 662, 660, 658, 656, 654, 652, 650, 648, 647,
    645, 643, 641, 640, 638, 636, 635, 633, 631, 630, 628, 627, 625, 624, 623, 621, 620, 618, 617, 616, 614,
    613, 612, 611, 609, 608, 607, 606, 605, 603, 602, 601, 600, 599, 598, 597, 596, 595, 594, 593, 591, 590,
    589, 589, 588, 587, 586, 585, 584, 583, 582, 581, 580, 579, 578, 578, 577, 576, 575, 574, 573, 573, 572,
    571, 570, 569, 569, 568, 567, 566, 566, 565, 564, 563, 563, 562, 561, 561, 560, 559, 559, 558, 557, 557,
    556, 555, 555, 554, 553, 553, 552, 551, 551, 550, 550, 549, 548, 548, 547, 547, 546, 545, 545, 544, 544,
    543, 543, 542, 542, 541, 541, 540, 539, 539, 538, 538, 537, 537, 536, 536, 535, 535, 534, 534, 533, 533,
    532, 532, 531, 531, 531, 530, 530, 529, 529, 528, 528, 527, 527, 526, 526, 526, 525, 525, 524, 524, 523,
    523, 523, 522, 522, 521, 521, 521, 520, 520, 519, 519, 519, 518, 518, 517, 517, 517, 516, 516, 515, 515,
    515, 514, 514, 514, 513, 513, 513]),
    (16384, [10338, 8193, 7057, 6339, 5837, 5462, 5169, 4933, 4737, 4571, 4428, 4304, 4194, 4097, 4009, 3930,
    3857, 3791, 3731, 3675, 3622, 3574, 3529, 3486, 3446, 3409, 3373, 3339, 3308, 3277, 3248, 3221, 3195,
    3170, 3146, 3122, 3100, 3079, 3059, 3039, 3020, 3002, 2984, 2967, 2950, 2934, 2919, 2903, 2889, 2875,
    2861, 2847, 2834, 2822, 2809, 2797, 2786, 2774, 2763, 2752, 2742, 2731, 2721, 2711, 2701, 2692, 2683,
    2674, 2665, 2656, 2647, 2639, 2631, 2623, 2615, 2607, 2600, 2592, 2585, 2578, 2571, 2564, 2557, 2550,
    2543, 2537, 2531, 2524, 2518, 2512, 2506, 2500, 2494, 2489, 2483, 2477, 2472, 2467, 2461, 2456, 2451,
    2446, 2441, 2436, 2431, 2426, 2421, 2417, 2412, 2407, 2403, 2398, 2394, 2390, 2385, 2381, 2377, 2373,
    2369, 2364, 2360, 2356, 2353, 2349, 2345, 2341, 2337, 2334, 2330, 2326, 2323, 2319, 2316, 2312, 2309,
    2305, 2302, 2299, 2295, 2292, 2289, 2286, 2282, 2279, 2276, 2273, 2270, 2267, 2264, 2261, 2258, 2255,
    2252, 2249, 2247, 2244, 2241, 2238, 2235, 2233, 2230, 2227, 2225, 2222, 2219, 2217, 2214, 2212, 2209,
    2207, 2204, 2202, 2199, 2197, 2195, 2192, 2190, 2187, 2185, 2183, 2180, 2178, 2176, 2174, 2171, 2169,
    2167, 2165, 2163, 2161, 2158, 2156, 2154, 2152, 2150, 2148, 2146, 2144, 2142, 2140, 2138, 2136, 2134,
    2132, 2130, 2128, 2126, 2124, 2122, 2121, 2119, 2117, 2115, 2113, 2111, 2110, 2108, 2106, 2104, 2103,
    2101, 2099, 2097, 2096, 2094, 2092, 2091, 2089, 2087, 2086, 2084, 2082, 2081, 2079, 2077, 2076, 2074,
    2073, 2071, 2069, 2068, 2066, 2065, 2063, 2062, 2060, 2059, 2057, 2056, 2054, 2053, 2051, 2050, 2049])
  ]

/-- remove trailing zero digits -/
def strip (b : Nat) : Nat → Nat → Nat
  | 0, E => E
  | f + 1, E => if E % b = 0 ∧ E ≠ 0 then strip b f (E / b) else E

def tableOk (w b N : Nat) : Bool :=
  decide (b ^ (N - 1) ≤ 2 ^ w) && decide (2 ^ w < b ^ N) &&
    (decide (2 ^ w % b = 0) || let x := strip b 60 (b ^ (N - 1) - 2 ^ w / b); decide (b ≤ x) && decide (x % b ≠ 0))

theorem table_checked : (digitTable.all fun p => (p.2.zipIdx 3).all fun q => tableOk p.1 q.2 q.1) = true := by
  decide +kernel

theorem table_rows : digitTable.map (fun p => (p.1, p.2.length)) =
    [(32, 254), (64, 254), (256, 254), (1024, 254), (4096, 254), (16384, 254)] := by decide +kernel

theorem table_has (w b : Nat) (hw : w ∈ [32, 64, 256, 1024, 4096, 16384]) (hb : 3 ≤ b) (hb' : b ≤ 256) :
    ∃ N, tableOk w b N = true := by
  have h1 : ∃ row, (w, row) ∈ digitTable ∧ row.length = 254 := by
    have : (w, 254) ∈ digitTable.map (fun p => (p.1, p.2.length)) := by
      rw [table_rows]
      simp only [List.mem_cons, List.not_mem_nil, or_false] at hw
      rcases hw with rfl | rfl | rfl | rfl | rfl | rfl <;> simp
    rw [List.mem_map] at this
    obtain ⟨⟨w', row⟩, hm, he⟩ := this
    simp only [Prod.mk.injEq] at he
    exact ⟨row, by rw [← he.1]; exact hm, he.2⟩
  obtain ⟨row, hm, hl⟩ := h1
  have h2 := List.all_eq_true.1 table_checked _ hm
  have h3 : (row[b - 3]'(by omega), b) ∈ row.zipIdx 3 := by
    rw [List.mem_iff_getElem]
    refine ⟨b - 3, by rw [List.length_zipIdx]; omega, ?_⟩
    rw [List.getElem_zipIdx]
    congr 1; omega
  exact ⟨_, List.all_eq_true.1 h2 _ h3⟩

theorem strip_mono (b c : Nat) (hb : 1 < b) (hc : 0 < c) (hcb : c < b) : ∀ f q,
    strip b f (c * b ^ q) < b ∨ strip b f (c * b ^ q) % b = 0 := by
  intro f
  induction f with
  | zero =>
    intro q
    rw [strip]
    cases q with
    | zero => left; simpa using hcb
    | succ q => right; rw [Nat.pow_succ, ← Nat.mul_assoc]; exact Nat.mul_mod_left _ _
  | succ f ih =>
    intro q
    rw [strip]
    cases q with
    | zero =>
      left
      rw [Nat.pow_zero, Nat.mul_one, if_neg]
      · exact hcb
      · rw [Nat.mod_eq_of_lt hcb]; omega
    | succ q =>
      have hp : 0 < c * b ^ (q + 1) := Nat.mul_pos hc (Nat.pow_pos (by omega))
      rw [if_pos ⟨by rw [Nat.pow_succ, ← Nat.mul_assoc]; exact Nat.mul_mod_left _ _, by omega⟩,
        Nat.pow_succ, ← Nat.mul_assoc, Nat.mul_div_cancel _ (by omega)]
      exact ih q

theorem room (w b N k : Nat) (hw : w ∈ [32, 64, 256, 1024, 4096, 16384]) (hb : 3 ≤ b) (hb' : b ≤ 256)
    (hT : topfill b N k < 2 ^ w) (hl : 0 < k / (b - 1)) (hN : k / (b - 1) + 2 ≤ N) :
    topfill b N k + k % (b - 1) < 2 ^ w := by
  by_contra hcon
  obtain ⟨l, hle⟩ : ∃ l, l = k / (b - 1) := ⟨_, rfl⟩
  obtain ⟨rem, hre⟩ : ∃ rem, rem = k % (b - 1) := ⟨_, rfl⟩
  have hrl : rem < b - 1 := by rw [hre]; exact Nat.mod_lt _ (by omega)
  have hk : k = l * (b - 1) + rem := by rw [hle, hre, Nat.mul_comm]; exact (Nat.div_add_mod _ _).symm
  rw [← hle] at hl hN
  rw [← hre] at hcon
  have hcl := topfill_closed b (by omega) l N rem (by omega) hrl
  rw [← hk] at hcl
  obtain ⟨p, hp⟩ : ∃ p, N = l + p + 2 := ⟨N - l - 2, by omega⟩
  rw [show N - l = p + 2 by omega, show p + 2 - 1 = p + 1 by omega] at hcl
  obtain ⟨T, hTe⟩ : ∃ T, T = topfill b N k := ⟨_, rfl⟩
  rw [← hTe] at hT hcon hcl
  obtain ⟨N0, h0⟩ := table_has w b hw hb hb'
  simp only [tableOk, Bool.and_eq_true, Bool.or_eq_true, decide_eq_true_eq] at h0
  obtain ⟨⟨h1, h2⟩, h34⟩ := h0
  obtain ⟨M, hM⟩ : ∃ M, N = M + 1 := ⟨N - 1, by omega⟩
  have hb1 : 1 < b := by omega
  have epow : ∀ n, b ^ (n + 1) = b ^ n * b := fun n => Nat.pow_succ _ _
  have hple : b ^ (p + 2) ≤ b ^ M := Nat.pow_le_pow_right (by omega) (by omega)
  have hpN : b ^ N = b ^ M * b := by rw [hM, epow]
  have h2M : b ^ M * 2 ≤ b ^ M * b := Nat.mul_le_mul_left _ (by omega)
  have hc1 : (rem + 1) * b ^ (p + 1) ≤ (b - 1) * b ^ (p + 1) := Nat.mul_le_mul_right _ (by omega)
  have hbp : b ^ (p + 2) = b * b ^ (p + 1) := by rw [epow, Nat.mul_comm]
  have hbb : b * b ^ (p + 1) = (b - 1) * b ^ (p + 1) + b ^ (p + 1) := by
    obtain ⟨c, rfl⟩ : ∃ c, b = c + 1 := ⟨b - 1, by omega⟩
    rw [Nat.add_sub_cancel]; ring
  have hbge : b ≤ b ^ (p + 1) := by
    rw [epow]; exact Nat.le_mul_of_pos_left _ (Nat.pow_pos (by omega))
  rw [Nat.add_mul, Nat.one_mul] at hc1
  -- b^(N-1) ≤ 2^w < b^N
  have g1 : b ^ M ≤ 2 ^ w := by omega
  have g2 : 2 ^ w < b ^ N := by omega
  have hNN : N0 = N := by
    have a1 : b ^ (N0 - 1) < b ^ N := by omega
    have a2 : b ^ M < b ^ N0 := by omega
    rw [Nat.pow_lt_pow_iff_right hb1] at a1 a2
    omega
  rw [hNN, show N - 1 = M by omega] at h34
  have hcc : (b - rem) * b ^ p = b ^ (p + 1) - rem * b ^ p := by
    rw [Nat.sub_mul, epow, Nat.mul_comm b]
  have hccle : (b - rem) * b ^ p ≤ b ^ M := by
    have : b ^ (p + 1) ≤ b ^ M := Nat.pow_le_pow_right (by omega) (by omega)
    omega
  obtain ⟨t, ht⟩ : ∃ t, t + (b - rem) * b ^ p = b ^ M := ⟨b ^ M - (b - rem) * b ^ p, by omega⟩
  have hTt : T = t * b := by
    have e1 : t * b + (b - rem) * b ^ p * b = b ^ N := by rw [hpN, ← ht, Nat.add_mul]
    have e2 : (b - rem) * b ^ p * b + rem * b ^ (p + 1) = b ^ (p + 2) := by
      rw [Nat.mul_assoc, ← epow, ← Nat.add_mul, Nat.sub_add_cancel (by omega), hbp]
    omega
  have hdiv : 2 ^ w / b = t := by
    apply Nat.div_eq_of_lt_le
    · omega
    · rw [Nat.add_mul, Nat.one_mul]; omega
  rcases h34 with h5 | ⟨h3, h4⟩
  · have := Nat.div_add_mod (2 ^ w) b
    rw [h5, hdiv, Nat.mul_comm] at this
    omega
  · rw [hdiv, show b ^ M - t = (b - rem) * b ^ p by omega] at h3 h4
    have hrem0 : 0 < rem := by omega
    rcases strip_mono b (b - rem) hb1 (by omega) (by omega) 60 p with h | h
    · omega
    · exact h4 h

theorem widthFor_mem (n w : Nat) (h : widthFor n = some w) : w ∈ [32, 64, 256, 1024, 4096, 16384] := by
  unfold widthFor at h
  repeat' split at h
  all_goals first
    | (injection h with h; subst h; simp)
    | simp at h

theorem basisType_mem (N b k w : Nat) (hb : 2 < b) (h : getBasisType N (some k) b = some w) :
    w ∈ [32, 64, 256, 1024, 4096, 16384] := by
  unfold getBasisType at h
  simp only [Option.map_some, Option.getD_some, decide_eq_true_eq, if_pos (show b > 2 from hb)] at h
  split at h
  · simp at h
  · exact widthFor_mem _ _ h

end Proof.Boson
