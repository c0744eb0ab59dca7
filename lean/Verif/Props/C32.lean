import Verif.Proof.Square
import Mathlib.Tactic.Linarith
import Mathlib.Tactic.Tauto
/-!
C32  Square-lattice symmetry maps are symmetries of the lattice.

`Spec.dest map i` is the site to which site `i` goes and `Spec.inverts map i` says whether its occupation is inverted.
`siteAt Lx x y` is the number of the site in column `x` and row `y`, and `Bond` says that two sites are neighbours on the periodic lattice.
`Model.processMap` is what a basis makes of a map (C36): the period.
-/
namespace Props
open Spec Spec.Square Model.Square Proof.Square

variable {Lx Ly : ℕ}

/-- The translations and reflections move the sites as documented and invert none. -/
theorem C32_moves {x y : ℕ} (hx : x < Lx) (hy : y < Ly) :
    (dest (Tx Lx Ly) (siteAt Lx x y) = siteAt Lx ((x + 1) % Lx) y ∧ inverts (Tx Lx Ly) (siteAt Lx x y) = false) ∧
    (dest (Ty Lx Ly) (siteAt Lx x y) = siteAt Lx x ((y + 1) % Ly) ∧ inverts (Ty Lx Ly) (siteAt Lx x y) = false) ∧
    (dest (Px Lx Ly) (siteAt Lx x y) = siteAt Lx (Lx - 1 - x) y ∧ inverts (Px Lx Ly) (siteAt Lx x y) = false) ∧
    (dest (Py Lx Ly) (siteAt Lx x y) = siteAt Lx x (Ly - 1 - y) ∧ inverts (Py Lx Ly) (siteAt Lx x y) = false) := by
  have hs := site_lt hx hy
  have hX := site_X (y := y) hx
  have hY := site_Y (y := y) hx
  refine ⟨dest_map _ hs ?_, dest_map _ hs ?_, dest_map _ hs ?_, dest_map _ hs ?_⟩
  · rw [hX, hY, mod_succ_int]; unfold siteAt; push_cast; ring
  · rw [hX, hY, mod_succ_int]; unfold siteAt; push_cast; ring
  · rw [hX, hY]; unfold siteAt
    have : ((Lx - 1 - x : ℕ) : ℤ) = Lx - x - 1 := by omega
    push_cast [this]; ring
  · rw [hX, hY]; unfold siteAt
    have : ((Ly - 1 - y : ℕ) : ℤ) = Ly - y - 1 := by omega
    push_cast [this]; ring

/-- The diagonal reflections exist exactly on square lattices, and move the sites as documented. -/
theorem C32_diagonals : ((∃ m, Pd Lx Ly = some m) ↔ Lx = Ly) ∧ ((∃ m, Pe Lx Ly = some m) ↔ Lx = Ly) ∧
    (∀ m, Pd Lx Ly = some m → ∀ x < Lx, ∀ y < Ly, dest m (siteAt Lx x y) = siteAt Lx y x ∧ inverts m (siteAt Lx x y) = false) ∧
    (∀ m, Pe Lx Ly = some m → ∀ x < Lx, ∀ y < Ly,
      dest m (siteAt Lx x y) = siteAt Lx (Ly - 1 - y) (Lx - 1 - x) ∧ inverts m (siteAt Lx x y) = false) := by
  unfold Pd Pe
  refine ⟨by split <;> simp_all, by split <;> simp_all, ?_, ?_⟩
  · intro m hm x hx y hy
    split at hm
    · simp only [Option.some.injEq] at hm
      rw [← hm]
      refine dest_map _ (site_lt hx hy) ?_
      rw [site_X hx, site_Y hx]; unfold siteAt; push_cast; ring
    · exact absurd hm (by simp)
  · intro m hm x hx y hy
    split at hm
    · simp only [Option.some.injEq] at hm
      rw [← hm]
      refine dest_map _ (site_lt hx hy) ?_
      rw [site_X hx, site_Y hx]; unfold siteAt
      have h1 : ((Ly - 1 - y : ℕ) : ℤ) = Ly - y - 1 := by omega
      have h2 : ((Lx - 1 - x : ℕ) : ℤ) = Lx - x - 1 := by omega
      push_cast [h1, h2]; ring
    · exact absurd hm (by simp)

/-- The inversions move no site; `Z` inverts all sites, `Z_A` those with even `x + y` and `Z_B` the others. -/
theorem C32_inversions {x y : ℕ} (hx : x < Lx) (hy : y < Ly) :
    (dest (Z Lx Ly) (siteAt Lx x y) = siteAt Lx x y ∧ inverts (Z Lx Ly) (siteAt Lx x y) = true) ∧
    (dest (ZA Lx Ly) (siteAt Lx x y) = siteAt Lx x y ∧ inverts (ZA Lx Ly) (siteAt Lx x y) = decide ((x + y) % 2 = 0)) ∧
    (dest (ZB Lx Ly) (siteAt Lx x y) = siteAt Lx x y ∧ inverts (ZB Lx Ly) (siteAt Lx x y) = decide ((x + y) % 2 = 1)) := by
  have hs := site_lt hx hy
  refine ⟨dest_neg _ hs rfl, ?_, ?_⟩
  · by_cases h : (x + y) % 2 = 0
    · rw [decide_eq_true h]; exact dest_neg _ hs (by rw [site_X hx, site_Y hx, if_pos h])
    · rw [decide_eq_false h]; exact dest_map _ hs (by rw [site_X hx, site_Y hx, if_neg h])
  · by_cases h : (x + y) % 2 = 1
    · rw [decide_eq_true h]; exact dest_neg _ hs (by rw [site_X hx, site_Y hx, if_pos h])
    · rw [decide_eq_false h]; exact dest_map _ hs (by rw [site_X hx, site_Y hx, if_neg h])

/-- All maps are permutations of the sites. -/
theorem C32_permutations : IsSiteMap (Lx * Ly) (Tx Lx Ly) ∧ IsSiteMap (Lx * Ly) (Ty Lx Ly) ∧ IsSiteMap (Lx * Ly) (Px Lx Ly) ∧
    IsSiteMap (Lx * Ly) (Py Lx Ly) ∧ IsSiteMap (Lx * Ly) (Z Lx Ly) ∧ IsSiteMap (Lx * Ly) (ZA Lx Ly) ∧ IsSiteMap (Lx * Ly) (ZB Lx Ly) ∧
    (∀ m, Pd Lx Ly = some m → IsSiteMap (Lx * Ly) m) ∧ (∀ m, Pe Lx Ly = some m → IsSiteMap (Lx * Ly) m) := by
  have hmod : ∀ {L a b : ℕ}, a < L → b < L → (a + 1) % L = (b + 1) % L → a = b := by
    intro L a b h1 h2 h
    rw [mod_succ h1, mod_succ h2] at h
    split_ifs at h <;> omega
  refine ⟨?_, ?_, ?_, ?_, ?_, ?_, ?_, ?_, ?_⟩
  · exact isSiteMap_of _ (fun x _ => (x + 1) % Lx) (fun _ y => y) (fun x hx y hy => (C32_moves hx hy).1.1)
      (fun x hx y hy => ⟨Nat.mod_lt _ (by omega), hy⟩) (fun x hx y hy x' hx' y' hy' h1 h2 => ⟨hmod hx hx' h1, h2⟩)
  · exact isSiteMap_of _ (fun x _ => x) (fun _ y => (y + 1) % Ly) (fun x hx y hy => (C32_moves hx hy).2.1.1)
      (fun x hx y hy => ⟨hx, Nat.mod_lt _ (by omega)⟩) (fun x hx y hy x' hx' y' hy' h1 h2 => ⟨h1, hmod hy hy' h2⟩)
  · exact isSiteMap_of _ (fun x _ => Lx - 1 - x) (fun _ y => y) (fun x hx y hy => (C32_moves hx hy).2.2.1.1)
      (fun x hx y hy => ⟨by omega, hy⟩) (fun x hx y hy x' hx' y' hy' h1 h2 => ⟨by omega, h2⟩)
  · exact isSiteMap_of _ (fun x _ => x) (fun _ y => Ly - 1 - y) (fun x hx y hy => (C32_moves hx hy).2.2.2.1)
      (fun x hx y hy => ⟨hx, by omega⟩) (fun x hx y hy x' hx' y' hy' h1 h2 => ⟨h1, by omega⟩)
  · exact isSiteMap_of _ (fun x _ => x) (fun _ y => y) (fun x hx y hy => (C32_inversions hx hy).1.1)
      (fun x hx y hy => ⟨hx, hy⟩) (fun x hx y hy x' hx' y' hy' h1 h2 => ⟨h1, h2⟩)
  · exact isSiteMap_of _ (fun x _ => x) (fun _ y => y) (fun x hx y hy => (C32_inversions hx hy).2.1.1)
      (fun x hx y hy => ⟨hx, hy⟩) (fun x hx y hy x' hx' y' hy' h1 h2 => ⟨h1, h2⟩)
  · exact isSiteMap_of _ (fun x _ => x) (fun _ y => y) (fun x hx y hy => (C32_inversions hx hy).2.2.1)
      (fun x hx y hy => ⟨hx, hy⟩) (fun x hx y hy x' hx' y' hy' h1 h2 => ⟨h1, h2⟩)
  · intro m hm
    have hd := C32_diagonals.2.2.1 m hm
    have hL := C32_diagonals.1.1 ⟨m, hm⟩
    unfold Pd at hm
    rw [if_pos hL] at hm
    simp only [Option.some.injEq] at hm
    rw [← hm] at hd ⊢
    exact isSiteMap_of _ (fun _ y => y) (fun x _ => x) (fun x hx y hy => (hd x hx y hy).1)
      (fun x hx y hy => ⟨by omega, by omega⟩) (fun x hx y hy x' hx' y' hy' h1 h2 => ⟨h2, h1⟩)
  · intro m hm
    have hd := C32_diagonals.2.2.2 m hm
    have hL := C32_diagonals.2.1.1 ⟨m, hm⟩
    unfold Pe at hm
    rw [if_pos hL] at hm
    simp only [Option.some.injEq] at hm
    rw [← hm] at hd ⊢
    exact isSiteMap_of _ (fun _ y => Ly - 1 - y) (fun x _ => Lx - 1 - x) (fun x hx y hy => (hd x hx y hy).1)
      (fun x hx y hy => ⟨by omega, by omega⟩) (fun x hx y hy x' hx' y' hy' h1 h2 => ⟨by omega, by omega⟩)

/-- The maps without inversion preserve the bonds of the periodic lattice. -/
theorem C32_bonds {x y x' y' : ℕ} (hx : x < Lx) (hy : y < Ly) (hx' : x' < Lx) (hy' : y' < Ly) (h : Bond Lx Ly x y x' y') (m : List ℤ)
    (hm : m = Tx Lx Ly ∨ m = Ty Lx Ly ∨ m = Px Lx Ly ∨ m = Py Lx Ly ∨ some m = Pd Lx Ly ∨ some m = Pe Lx Ly) :
    ∃ a < Lx, ∃ b < Ly, ∃ a' < Lx, ∃ b' < Ly, dest m (siteAt Lx x y) = siteAt Lx a b ∧ dest m (siteAt Lx x' y') = siteAt Lx a' b' ∧
      Bond Lx Ly a b a' b' := by
  have hT : ∀ {L a b : ℕ}, a < L → b < L → Square.Ring L a b → Square.Ring L ((a + 1) % L) ((b + 1) % L) := by
    rintro L a b h1 h2 (rfl | rfl)
    · left; rfl
    · right; rfl
  have hP : ∀ {L a b : ℕ}, a < L → b < L → Square.Ring L a b → Square.Ring L (L - 1 - a) (L - 1 - b) := by
    intro L a b h1 h2 h
    unfold Square.Ring at h ⊢
    rw [mod_succ h1, mod_succ h2] at h
    rw [mod_succ (show L - 1 - a < L by omega), mod_succ (show L - 1 - b < L by omega)]
    split_ifs at h ⊢ <;> omega
  rcases hm with rfl | rfl | rfl | rfl | hm | hm
  · refine ⟨_, Nat.mod_lt _ (by omega), y, hy, _, Nat.mod_lt _ (by omega), y', hy', (C32_moves hx hy).1.1, (C32_moves hx' hy').1.1, ?_⟩
    rcases h with ⟨h1, h2⟩ | ⟨h1, h2⟩
    · exact Or.inl ⟨h1, hT hx hx' h2⟩
    · exact Or.inr ⟨by rw [h1], h2⟩
  · refine ⟨x, hx, _, Nat.mod_lt _ (by omega), x', hx', _, Nat.mod_lt _ (by omega), (C32_moves hx hy).2.1.1, (C32_moves hx' hy').2.1.1, ?_⟩
    rcases h with ⟨h1, h2⟩ | ⟨h1, h2⟩
    · exact Or.inl ⟨by rw [h1], h2⟩
    · exact Or.inr ⟨h1, hT hy hy' h2⟩
  · refine ⟨_, by omega, y, hy, _, by omega, y', hy', (C32_moves hx hy).2.2.1.1, (C32_moves hx' hy').2.2.1.1, ?_⟩
    rcases h with ⟨h1, h2⟩ | ⟨h1, h2⟩
    · exact Or.inl ⟨h1, hP hx hx' h2⟩
    · exact Or.inr ⟨by rw [h1], h2⟩
  · refine ⟨x, hx, _, by omega, x', hx', _, by omega, (C32_moves hx hy).2.2.2.1, (C32_moves hx' hy').2.2.2.1, ?_⟩
    rcases h with ⟨h1, h2⟩ | ⟨h1, h2⟩
    · exact Or.inl ⟨by rw [h1], h2⟩
    · exact Or.inr ⟨h1, hP hy hy' h2⟩
  · obtain rfl := C32_diagonals.1.1 ⟨m, hm.symm⟩
    have hd := C32_diagonals.2.2.1 m hm.symm
    refine ⟨y, hy, x, hx, y', hy', x', hx', (hd x hx y hy).1, (hd x' hx' y' hy').1, ?_⟩
    rcases h with h | h
    · exact Or.inr h
    · exact Or.inl h
  · obtain rfl := C32_diagonals.2.1.1 ⟨m, hm.symm⟩
    have hd := C32_diagonals.2.2.2 m hm.symm
    refine ⟨_, by omega, _, by omega, _, by omega, _, by omega, (hd x hx y hy).1, (hd x' hx' y' hy').1, ?_⟩
    rcases h with ⟨h1, h2⟩ | ⟨h1, h2⟩
    · exact Or.inr ⟨by rw [h1], hP hx hx' h2⟩
    · exact Or.inl ⟨by rw [h1], hP hy hy' h2⟩

/-- Relations between translations and reflections: the translations commute, reflections are involutions, each reflection turns the
translation along its direction into the inverse translation and commutes with the other one. -/
theorem C32_relations {i : ℕ} (hi : i < Lx * Ly) :
    dest (Tx Lx Ly) (dest (Ty Lx Ly) i) = dest (Ty Lx Ly) (dest (Tx Lx Ly) i) ∧
    dest (Px Lx Ly) (dest (Px Lx Ly) i) = i ∧ dest (Py Lx Ly) (dest (Py Lx Ly) i) = i ∧
    dest (Px Lx Ly) (dest (Py Lx Ly) i) = dest (Py Lx Ly) (dest (Px Lx Ly) i) ∧
    dest (Tx Lx Ly) (dest (Px Lx Ly) (dest (Tx Lx Ly) i)) = dest (Px Lx Ly) i ∧
    dest (Ty Lx Ly) (dest (Py Lx Ly) (dest (Ty Lx Ly) i)) = dest (Py Lx Ly) i ∧
    dest (Px Lx Ly) (dest (Ty Lx Ly) i) = dest (Ty Lx Ly) (dest (Px Lx Ly) i) ∧
    dest (Py Lx Ly) (dest (Tx Lx Ly) i) = dest (Tx Lx Ly) (dest (Py Lx Ly) i) := by
  obtain ⟨x, hx, y, hy, rfl⟩ := exists_site hi
  have hmx : (x + 1) % Lx < Lx := Nat.mod_lt _ (by omega)
  have hmy : (y + 1) % Ly < Ly := Nat.mod_lt _ (by omega)
  have hrx : Lx - 1 - x < Lx := by omega
  have hry : Ly - 1 - y < Ly := by omega
  obtain ⟨⟨t1, -⟩, ⟨t2, -⟩, ⟨t3, -⟩, t4, -⟩ := C32_moves hx hy
  obtain ⟨⟨a1, -⟩, ⟨a2, -⟩, ⟨a3, -⟩, a4, -⟩ := C32_moves hmx hy
  obtain ⟨⟨b1, -⟩, ⟨b2, -⟩, ⟨b3, -⟩, b4, -⟩ := C32_moves hx hmy
  obtain ⟨⟨c1, -⟩, ⟨c2, -⟩, ⟨c3, -⟩, c4, -⟩ := C32_moves hrx hy
  obtain ⟨⟨d1, -⟩, ⟨d2, -⟩, ⟨d3, -⟩, d4, -⟩ := C32_moves hx hry
  have hPT : ∀ {L a : ℕ}, a < L → (L - 1 - (a + 1) % L + 1) % L = L - 1 - a := by
    intro L a h
    rw [mod_succ h]
    split
    · rw [mod_succ (by omega)]; split <;> omega
    · rw [mod_succ (by omega)]; split <;> omega
  refine ⟨?_, ?_, ?_, ?_, ?_, ?_, ?_, ?_⟩
  · rw [t2, b1, t1, a2]
  · rw [t3, c3, show Lx - 1 - (Lx - 1 - x) = x by omega]
  · rw [t4, d4, show Ly - 1 - (Ly - 1 - y) = y by omega]
  · rw [t4, d3, t3, c4]
  · rw [t1, a3, (C32_moves (show Lx - 1 - (x + 1) % Lx < Lx by omega) hy).1.1, t3, hPT hx]
  · rw [t2, b4, (C32_moves hx (show Ly - 1 - (y + 1) % Ly < Ly by omega)).2.1.1, t4, hPT hy]
  · rw [t2, b3, t3, c2]
  · rw [t1, a4, t4, d1]

/-- The diagonal reflections are commuting involutions; `P_d` exchanges the translations and `P_e` exchanges one with the inverse of the other. -/
theorem C32_diagonal_relations {i : ℕ} (hi : i < Lx * Ly) {d e : List ℤ} (hd : Pd Lx Ly = some d) (he : Pe Lx Ly = some e) :
    dest d (dest d i) = i ∧ dest e (dest e i) = i ∧ dest d (dest e i) = dest e (dest d i) ∧
    dest d (dest (Tx Lx Ly) i) = dest (Ty Lx Ly) (dest d i) ∧ dest d (dest (Px Lx Ly) i) = dest (Py Lx Ly) (dest d i) ∧
    dest (Ty Lx Ly) (dest e (dest (Tx Lx Ly) i)) = dest e i ∧ dest e i = dest d (dest (Px Lx Ly) (dest (Py Lx Ly) i)) := by
  obtain ⟨x, hx, y, hy, rfl⟩ := exists_site hi
  obtain rfl := C32_diagonals.1.1 ⟨d, hd⟩
  have hD := C32_diagonals.2.2.1 d hd
  have hE := C32_diagonals.2.2.2 e he
  have hmx : (x + 1) % Lx < Lx := Nat.mod_lt _ (by omega)
  have hrx : Lx - 1 - x < Lx := by omega
  have hry : Lx - 1 - y < Lx := by omega
  obtain ⟨⟨t1, -⟩, ⟨t2, -⟩, ⟨t3, -⟩, t4, -⟩ := C32_moves hx hy
  have hPT : (Lx - 1 - (x + 1) % Lx + 1) % Lx = Lx - 1 - x := by
    rw [mod_succ hx]
    split
    · rw [mod_succ (by omega)]; split <;> omega
    · rw [mod_succ (by omega)]; split <;> omega
  refine ⟨?_, ?_, ?_, ?_, ?_, ?_, ?_⟩
  · rw [(hD x hx y hy).1, (hD y hy x hx).1]
  · rw [(hE x hx y hy).1, (hE _ hry _ hrx).1, show Lx - 1 - (Lx - 1 - x) = x by omega, show Lx - 1 - (Lx - 1 - y) = y by omega]
  · rw [(hE x hx y hy).1, (hD _ hry _ hrx).1, (hD x hx y hy).1, (hE y hy x hx).1]
  · rw [t1, (hD _ hmx y hy).1, (hD x hx y hy).1, (C32_moves hy hx).2.1.1]
  · rw [t3, (hD _ hrx y hy).1, (hD x hx y hy).1, (C32_moves hy hx).2.2.2.1]
  · rw [t1, (hE _ hmx y hy).1, (C32_moves hry (show Lx - 1 - (x + 1) % Lx < Lx by omega)).2.1.1, hPT, (hE x hx y hy).1]
  · rw [t4, (C32_moves hx hry).2.2.1.1, (hD _ hrx _ hry).1, (hE x hx y hy).1]

/-- `n` applications of a translation move a site by `n` columns or rows. -/
theorem C32_translations {x y : ℕ} (hx : x < Lx) (hy : y < Ly) (n : ℕ) :
    (dest (Tx Lx Ly))^[n] (siteAt Lx x y) = siteAt Lx ((x + n) % Lx) y ∧
    (dest (Ty Lx Ly))^[n] (siteAt Lx x y) = siteAt Lx x ((y + n) % Ly) := by
  induction n with
  | zero => simp [Nat.mod_eq_of_lt hx, Nat.mod_eq_of_lt hy]
  | succ n ih =>
    rw [Function.iterate_succ_apply', Function.iterate_succ_apply', ih.1, ih.2,
      (C32_moves (Nat.mod_lt _ (by omega)) hy).1.1, (C32_moves hx (Nat.mod_lt _ (by omega))).2.1.1]
    simp [Nat.add_assoc]

/-- The periods which a basis determines from the maps are the orders of the symmetries: `Lx` and `Ly` for the translations, 2 for
reflections (on a lattice which is wider than one site) and inversions. -/
theorem C32_periods (hx : 0 < Lx) (hy : 0 < Ly) {fuel : ℕ} (hf : 2 ≤ fuel) :
    (Lx ≤ fuel → Model.processMap fuel (Tx Lx Ly) = some (.ok Lx)) ∧ (Ly ≤ fuel → Model.processMap fuel (Ty Lx Ly) = some (.ok Ly)) ∧
    (1 < Lx → Model.processMap fuel (Px Lx Ly) = some (.ok 2)) ∧ (1 < Ly → Model.processMap fuel (Py Lx Ly) = some (.ok 2)) ∧
    (1 < Lx → ∀ d, Pd Lx Ly = some d → Model.processMap fuel d = some (.ok 2)) ∧
    (1 < Lx → ∀ e, Pe Lx Ly = some e → Model.processMap fuel e = some (.ok 2)) ∧
    Model.processMap fuel (Z Lx Ly) = some (.ok 2) ∧ Model.processMap fuel (ZA Lx Ly) = some (.ok 2) ∧
    (1 < Lx * Ly → Model.processMap fuel (ZB Lx Ly) = some (.ok 2)) := by
  have hper := C32_permutations (Lx := Lx) (Ly := Ly)
  obtain ⟨p1, p2, p3, p4, p5, p6, p7, p8, p9⟩ := hper
  have inv {m : List ℤ} (h : ∀ x < Lx, ∀ y < Ly, inverts m (siteAt Lx x y) = false) : ∀ i < Lx * Ly, inverts m i = false := by
    intro i hi
    obtain ⟨x, hx, y, hy, rfl⟩ := exists_site hi
    exact h x hx y hy
  have fix {m : List ℤ} (h : ∀ x < Lx, ∀ y < Ly, dest m (siteAt Lx x y) = siteAt Lx x y) : ∀ i < Lx * Ly, dest m i = i := by
    intro i hi
    obtain ⟨x, hx, y, hy, rfl⟩ := exists_site hi
    exact h x hx y hy
  have ne {a b a' b' : ℕ} (ha : a < Lx) (ha' : a' < Lx) (h : a ≠ a' ∨ b ≠ b') : siteAt Lx a b ≠ siteAt Lx a' b' := by
    intro he
    have h1 := congrArg (X Lx) he
    have h2 := congrArg (Y Lx) he
    rw [site_X ha, site_X ha'] at h1
    rw [site_Y ha, site_Y ha'] at h2
    rcases h with h | h
    · exact h h1
    · exact h h2
  refine ⟨fun hf => ?_, fun hf => ?_, fun h1 => ?_, fun h1 => ?_, fun h1 d hd => ?_, fun h1 e he => ?_, ?_, ?_, fun h1 => ?_⟩
  · refine process_eq p1 hx (fun i hi => ⟨?_, par_false p1 (inv fun x hx y hy => (C32_moves hx hy).1.2) _ i hi⟩) ?_ hf
    · obtain ⟨x, hx, y, hy, rfl⟩ := exists_site hi
      rw [(C32_translations hx hy Lx).1, (add_mod_self_iff hx).2 (dvd_refl _)]
    · intro n h0 hn ht
      have := (ht _ (site_lt hx hy)).1
      rw [(C32_translations hx hy n).1] at this
      refine ne (Nat.mod_lt _ hx) hx (Or.inl fun h => ?_) this
      exact absurd (Nat.le_of_dvd h0 ((add_mod_self_iff hx).1 h)) (by omega)
  · refine process_eq p2 hy (fun i hi => ⟨?_, par_false p2 (inv fun x hx y hy => (C32_moves hx hy).2.1.2) _ i hi⟩) ?_ hf
    · obtain ⟨x, hx, y, hy, rfl⟩ := exists_site hi
      rw [(C32_translations hx hy Ly).2, (add_mod_self_iff hy).2 (dvd_refl _)]
    · intro n h0 hn ht
      have := (ht _ (site_lt hx hy)).1
      rw [(C32_translations hx hy n).2] at this
      refine ne hx hx (Or.inr fun h => ?_) this
      exact absurd (Nat.le_of_dvd h0 ((add_mod_self_iff hy).1 h)) (by omega)
  · refine period_two p3 (inv fun x hx y hy => (C32_moves hx hy).2.2.1.2) (fun i hi => (C32_relations hi).2.1) (site_lt hx hy) ?_ hf
    rw [(C32_moves hx hy).2.2.1.1]
    exact ne (by omega) hx (Or.inl (by omega))
  · refine period_two p4 (inv fun x hx y hy => (C32_moves hx hy).2.2.2.2) (fun i hi => (C32_relations hi).2.2.1) (site_lt hx hy) ?_ hf
    rw [(C32_moves hx hy).2.2.2.1]
    exact ne hx hx (Or.inr (by omega))
  · have hL := C32_diagonals.1.1 ⟨d, hd⟩
    obtain ⟨e, he⟩ := C32_diagonals.2.1.2 hL
    have h := C32_diagonals.2.2.1 d hd
    refine period_two (p8 d hd) (inv fun x hx y hy => (h x hx y hy).2) (fun i hi => (C32_diagonal_relations hi hd he).1)
      (site_lt h1 hy) ?_ hf
    rw [(h 1 h1 0 hy).1]
    exact ne hx h1 (Or.inl (by omega))
  · have hL := C32_diagonals.2.1.1 ⟨e, he⟩
    obtain ⟨d, hd⟩ := C32_diagonals.1.2 hL
    have h := C32_diagonals.2.2.2 e he
    refine period_two (p9 e he) (inv fun x hx y hy => (h x hx y hy).2) (fun i hi => (C32_diagonal_relations hi hd he).2.1)
      (site_lt hx hy) ?_ hf
    rw [(h 0 hx 0 hy).1]
    exact ne (by omega) hx (Or.inl (by omega))
  · exact period_invert p5 (fix fun x hx y hy => (C32_inversions hx hy).1.1) (site_lt hx hy) (C32_inversions hx hy).1.2 hf
  · exact period_invert p6 (fix fun x hx y hy => (C32_inversions hx hy).2.1.1) (site_lt hx hy)
      (by rw [(C32_inversions hx hy).2.1.2]; rfl) hf
  · have hs : ∃ x < Lx, ∃ y < Ly, (x + y) % 2 = 1 := by
      by_cases h : 1 < Lx
      · exact ⟨1, h, 0, hy, rfl⟩
      · obtain rfl : Lx = 1 := by omega
        exact ⟨0, by omega, 1, by omega, rfl⟩
    obtain ⟨x, hx, y, hy, h⟩ := hs
    exact period_invert p7 (fix fun x hx y hy => (C32_inversions hx hy).2.2.1) (site_lt hx hy)
      (by rw [(C32_inversions hx hy).2.2.2, decide_eq_true h]) hf

example : (Tx 3 2, Ty 3 2, Px 3 2, Py 3 2) = ([1, 2, 0, 4, 5, 3], [3, 4, 5, 0, 1, 2], [2, 1, 0, 5, 4, 3], [3, 4, 5, 0, 1, 2]) := by decide
example : (Pd 2 2, Pe 2 2, Pd 3 2, Z 2 2, ZA 2 2, ZB 2 2) =
    (some [0, 2, 1, 3], some [3, 1, 2, 0], none, [-1, -2, -3, -4], [-1, 1, 2, -4], [0, -2, -3, 3]) := by decide

/-! ## The iterators over symmetry blocks -/

/-- The numbers in the range of momenta represent every momentum (class of integers modulo `L`) exactly once. -/
theorem C32_momenta {L : ℕ} (hL : 0 < L) : (momenta L).Nodup ∧ ∀ q : ℤ, ∃! k, k ∈ momenta L ∧ (L : ℤ) ∣ q - k := by
  refine ⟨momenta_nodup L, fun q => ?_⟩
  have hpos : (0 : ℤ) < L := by exact_mod_cast hL
  -- the representative of q in the range
  set a : ℤ := -(L : ℤ) / 2 + 1 with ha
  have h0 := Int.emod_nonneg (q - a) (ne_of_gt hpos)
  have h1 := Int.emod_lt_of_pos (q - a) hpos
  refine ⟨a + (q - a) % L, ⟨mem_momenta.2 ?_, ?_⟩, ?_⟩
  · constructor
    · omega
    · omega
  · have := Int.emod_add_mul_ediv (q - a) L
    exact ⟨(q - a) / L, by linarith⟩
  · rintro k ⟨hk, c, hc⟩
    rw [mem_momenta] at hk
    have h2 : (q - a) % L = k - a := by
      rw [show q - a = (k - a) + L * c by linarith, Int.add_mul_emod_self_left, Int.emod_eq_of_lt (by omega) (by omega)]
    omega

/-- The iterator yields no block twice. -/
theorem C32_blocks_once : (allowedBlocks Lx Ly).Nodup := by
  unfold allowedBlocks
  rw [List.nodup_flatMap]
  constructor
  · intro kx _
    rw [List.nodup_flatMap]
    refine ⟨fun ky _ => blocksAt_nodup kx ky, (momenta_nodup Ly).imp_of_mem ?_⟩
    intro k k' _ _ hne b h1 h2
    exact hne ((blocksAt_k h1).2.symm.trans (blocksAt_k h2).2)
  · refine (momenta_nodup Lx).imp_of_mem ?_
    intro k k' _ _ hne b h1 h2
    rw [List.mem_flatMap] at h1 h2
    obtain ⟨_, _, h1⟩ := h1
    obtain ⟨_, _, h2⟩ := h2
    exact hne ((blocksAt_k h1).1.symm.trans (blocksAt_k h2).1)

/-- Which momenta the iterator visits: exactly those that are fixed by one of the four reflections. -/
theorem C32_visited {kx ky : ℤ} : (∃ b ∈ allowedBlocks Lx Ly, b.kx = kx ∧ b.ky = ky) ↔ kx ∈ momenta Lx ∧ ky ∈ momenta Ly ∧
    ((Lx : ℤ) ∣ 2 * kx ∨ (Ly : ℤ) ∣ 2 * ky ∨ (Lx = Ly ∧ (kx = ky ∨ kx = -ky))) := by
  have hne : ∀ (hx : kx ∈ momenta Lx) (hy : ky ∈ momenta Ly), (∃ b, b ∈ blocksAt Lx Ly kx ky) ↔
      ((Lx : ℤ) ∣ 2 * kx ∨ (Ly : ℤ) ∣ 2 * ky ∨ (Lx = Ly ∧ (kx = ky ∨ kx = -ky))) := by
    intro hx hy
    have he : (∃ b, b ∈ blocksAt Lx Ly kx ky) ↔ blocksAt Lx Ly kx ky ≠ [] := by
      rw [Ne, List.eq_nil_iff_forall_not_mem]; push Not; rfl
    rw [he, double_dvd hx, double_dvd hy]
    clear he hx hy
    unfold blocksAt pairs
    by_cases hL : Lx = Ly <;> simp only [hL, and_true, and_false, if_false, true_and, false_and, or_false] <;> split_ifs <;> simp <;> omega
  constructor
  · rintro ⟨b, hb, rfl, rfl⟩
    unfold allowedBlocks at hb
    simp only [List.mem_flatMap] at hb
    obtain ⟨kx, hx, ky, hy, hb⟩ := hb
    obtain ⟨e1, e2⟩ := blocksAt_k hb
    rw [e1, e2]
    rw [e1, e2] at hne
    exact ⟨hx, hy, (hne hx hy).1 ⟨b, hb⟩⟩
  · rintro ⟨hx, hy, h⟩
    obtain ⟨b, hb⟩ := (hne hx hy).2 h
    refine ⟨b, ?_, blocksAt_k hb⟩
    unfold allowedBlocks
    simp only [List.mem_flatMap]
    exact ⟨kx, hx, ky, hy, hb⟩

/-- The quantum numbers in a block are compatible: a reflection is used only where it maps the momentum of the block to itself (`P_x`:
`kx` to `-kx`, `P_y`: `ky` to `-ky`, `P_d`: exchange, `P_e`: exchange and change of sign), and a diagonal reflection is used together with
`P_x` and `P_y` only if these have equal quantum numbers.  Missing: lattices with different even sides (see `C32_fails_none`). -/
theorem C32_compatible_partial (h : Lx = Ly ∨ Lx % 2 = 1 ∨ Ly % 2 = 1) {b : Block} (hb : b ∈ allowedBlocks Lx Ly) :
    (∀ p, b.px = some p → p < 2 ∧ (Lx : ℤ) ∣ 2 * b.kx) ∧ (∀ p, b.py = some p → p < 2 ∧ (Ly : ℤ) ∣ 2 * b.ky) ∧
    (∀ m p, b.pd = some (m, p) → p < 2 ∧ Lx = Ly ∧ (b.px.isSome → b.px = b.py) ∧
      ((m = Pd Lx Ly ∧ b.kx = b.ky) ∨ (m = Pe Lx Ly ∧ b.kx = -b.ky))) := by
  unfold allowedBlocks at hb
  simp only [List.mem_flatMap] at hb
  obtain ⟨kx, hx, ky, hy, hb⟩ := hb
  obtain ⟨e1, e2⟩ := blocksAt_k hb
  rw [e1, e2, double_dvd hx, double_dvd hy]
  revert hb
  unfold blocksAt pairs
  by_cases hL : Lx = Ly
  · subst hL
    split_ifs <;> simp <;> (intro hb; rcases hb with hb | hb | hb | hb | hb | hb) <;> simp_all
  · split_ifs <;> simp [hL] <;> (try omega) <;> (intro hb; rcases hb with hb | hb | hb | hb | hb | hb) <;> simp_all

example : (⟨1, 1, some 1, some 1, some (Pd 2 2, 0)⟩ : Block) ∈ allowedBlocks 2 2 ∧ (⟨1, -1, none, none, some (Pe 3 3, 1)⟩ : Block) ∈ allowedBlocks 3 3 := by
  decide

/-- The blocks with spin inversion: for `Np = None` and at half filling every block with both quantum numbers of the inversion, otherwise
every block without it. -/
theorem C32_inversion_blocks (Np : Option ℕ) (sps : ℕ) (b : Block) (z : Option ℕ) :
    (b, z) ∈ looped (inversionBlocks Lx Ly Np sps) ↔ b ∈ allowedBlocks Lx Ly ∧
      if Np = none ∨ (∃ n, Np = some n ∧ 2 * n = (sps - 1) * (Lx * Ly) ∧ 2 ∣ Lx * Ly) then z = some 0 ∨ z = some 1 else z = none := by
  have hc : (Np.elim true fun n => decide (n = (sps - 1) * (Lx * Ly) / 2 ∧ Lx * Ly % 2 = 0)) = true ↔
      (Np = none ∨ (∃ n, Np = some n ∧ 2 * n = (sps - 1) * (Lx * Ly) ∧ 2 ∣ Lx * Ly)) := by
    cases Np with
    | none => simp
    | some n =>
      simp only [Option.elim_some, decide_eq_true_eq, reduceCtorEq, Option.some.injEq, false_or, exists_eq_left']
      constructor
      · rintro ⟨h1, h2⟩
        have hd : 2 ∣ Lx * Ly := Nat.dvd_of_mod_eq_zero h2
        exact ⟨by rw [h1]; exact Nat.mul_div_cancel' (Dvd.dvd.mul_left hd _), hd⟩
      · rintro ⟨h1, h2⟩
        exact ⟨by omega, by omega⟩
  unfold looped inversionBlocks
  by_cases h : (Np = none ∨ (∃ n, Np = some n ∧ 2 * n = (sps - 1) * (Lx * Ly) ∧ 2 ∣ Lx * Ly))
  · rw [if_pos h, if_pos (hc.2 h)]
    simp only [List.mem_map, List.mem_flatMap]
    constructor
    · rintro ⟨_, ⟨b', hb', z', hz', rfl⟩, he⟩
      simp only [Prod.mk.injEq] at he
      obtain ⟨rfl, rfl⟩ := he
      refine ⟨hb', ?_⟩
      simpa using hz'
    · rintro ⟨hb, hz⟩
      obtain ⟨z', hz', rfl⟩ : ∃ z' ∈ [0, 1], z = some z' := by rcases hz with rfl | rfl <;> simp
      exact ⟨_, ⟨b, hb, z', hz', rfl⟩, rfl⟩
  · rw [if_neg h, if_neg (fun h' => h (hc.1 h'))]
    simp only [List.map_map, List.mem_map]
    constructor
    · rintro ⟨b', hb', he⟩
      simp only [Function.comp, Prod.mk.injEq] at he
      exact ⟨he.1 ▸ hb', he.2.symm⟩
    · rintro ⟨hb, rfl⟩
      exact ⟨b, hb, rfl⟩

/-- The parity iterator yields the four combinations of quantum numbers, each once. -/
theorem C32_parity_blocks : parityBlocks.Nodup ∧ ∀ px py, (px, py) ∈ parityBlocks ↔ px < 2 ∧ py < 2 := by
  refine ⟨by decide, fun px py => ?_⟩
  simp only [parityBlocks, pairs, List.mem_cons, Prod.mk.injEq, List.not_mem_nil, or_false]
  omega

/-- The iterator does not visit all momenta: pairs that no reflection fixes are left out, so the union of the yielded blocks is not the whole
space.  On the 5 × 5 lattice `(1, 2)` is such a pair. -/
theorem C32_fails_skipped : (1 : ℤ) ∈ momenta 5 ∧ (2 : ℤ) ∈ momenta 5 ∧ ¬ ∃ b ∈ allowedBlocks 5 5, b.kx = 1 ∧ b.ky = 2 := by
  refine ⟨by decide, by decide, fun h => ?_⟩
  have := (C32_visited.1 h).2.2
  omega

/-- On every lattice with different even sides the iterator yields a block whose diagonal reflection is `None`. -/
theorem C32_fails_none (hx : 0 < Lx) (hy : 0 < Ly) (h2x : Lx % 2 = 0) (h2y : Ly % 2 = 0) (hne : Lx ≠ Ly) :
    ∃ b ∈ allowedBlocks Lx Ly, ∃ p, b.pd = some (none, p) := by
  refine ⟨⟨(Lx : ℤ) / 2, (Ly : ℤ) / 2, some 0, some 0, some (Pd Lx Ly, 0)⟩, ?_, 0, by simp [Pd, hne]⟩
  unfold allowedBlocks
  simp only [List.mem_flatMap]
  refine ⟨(Lx : ℤ) / 2, mem_momenta.2 (by omega), (Ly : ℤ) / 2, mem_momenta.2 (by omega), ?_⟩
  unfold blocksAt pairs
  rw [if_neg (by omega), if_pos ⟨rfl, h2x⟩, if_pos ⟨rfl, h2y⟩]
  simp

/-- Collected in a list, the blocks of the spin-inversion iterator have all lost their `zblock`: a loop sees it, the list does not, because the
same dictionary is changed after it was yielded. -/
theorem C32_fails_collect (Np : Option ℕ) (sps : ℕ) : ∀ b ∈ collected (inversionBlocks Lx Ly Np sps), b.2 = none := by
  intro b hb
  unfold collected inversionBlocks at hb
  split at hb
  · simp only [List.mem_map, List.mem_flatMap] at hb
    obtain ⟨_, ⟨b', _, z, _, rfl⟩, rfl⟩ := hb
    rfl
  · simp only [List.map_map, List.mem_map] at hb
    obtain ⟨b', _, rfl⟩ := hb
    rfl

example : (looped (inversionBlocks 2 2 (some 2) 2)).length = 32 ∧ (looped (inversionBlocks 2 2 (some 1) 2)).length = 16 ∧
    (looped (inversionBlocks 2 2 none 2)).all (fun b => b.2 ≠ none) := by decide

end Props
