import Verif.Proof.OpAccept
import Mathlib.Algebra.BigOperators.Ring.Finset

/-! Strings on distinct sites are linearly independent operators. -/

namespace Proof.OpStr
open Model.OpStr Spec Proof.Lattice

variable {b N : Nat}

/-- The character at a site. -/
def at' (l : List (Char × Nat)) (i : Nat) : Option Char := (l.find? fun p => p.2 = i).map Prod.fst

theorem at'_cons (p : Char × Nat) (l : List (Char × Nat)) (i : Nat) : at' (p :: l) i = if p.2 = i then some p.1 else at' l i := by
  unfold at'
  rw [List.find?_cons]
  by_cases h : p.2 = i <;> simp [h]

theorem at'_iff {l : List (Char × Nat)} (hn : (l.map Prod.snd).Nodup) (c : Char) (i : Nat) : at' l i = some c ↔ (c, i) ∈ l := by
  induction l with
  | nil => simp [at']
  | cons p l ih =>
    rw [List.map_cons, List.nodup_cons] at hn
    rw [at'_cons]
    by_cases h : p.2 = i
    · rw [if_pos h]
      constructor
      · intro hc
        have : p.1 = c := by simpa using hc
        exact List.mem_cons.2 (Or.inl (Prod.ext this.symm h.symm))
      · intro hm
        rcases List.mem_cons.1 hm with hm | hm
        · rw [← hm]
        · exact absurd (List.mem_map.2 ⟨(c, i), hm, h.symm⟩) hn.1
    · rw [if_neg h, ih hn.2]
      constructor
      · intro hm; exact List.mem_cons.2 (Or.inr hm)
      · intro hm
        rcases List.mem_cons.1 hm with hm | hm
        · exact absurd (by rw [← hm]) h
        · exact hm

theorem at'_none {l : List (Char × Nat)} {i : Nat} (h : i ∉ l.map Prod.snd) : at' l i = none := by
  unfold at'
  rw [Option.map_eq_none_iff, List.find?_eq_none]
  intro p hp he
  exact h (List.mem_map.2 ⟨p, hp, by simpa using he⟩)

/-- The matrix of a character, the identity for no character. -/
noncomputable def siteMat (u : Char → Nat → Nat → ℂ) (x : Option Char) (a c : Fin b) : ℂ := x.elim (if a = c then 1 else 0) fun o => u o a c

theorem word_entry (u : Char → Nat → Nat → ℂ) (l : List (Char × Nat)) (hn : (l.map Prod.snd).Nodup) (hN : ∀ p ∈ l, p.2 < N) :
    ∀ (t s : Conf b N), wordL (siteOp b N u) l t s = ∏ i : Fin N, siteMat u (at' l i) (t i) (s i) := by
  induction l with
  | nil =>
    intro t s
    rw [wordL_nil, Matrix.one_apply]
    simp only [at', List.find?_nil, Option.map_none, siteMat, Option.elim_none]
    by_cases h : t = s
    · subst h; simp
    · rw [if_neg h]
      obtain ⟨i, hi⟩ := Function.ne_iff.1 h
      exact (Finset.prod_eq_zero (Finset.mem_univ i) (by simp [hi])).symm
  | cons p l ih =>
    intro t s
    rw [List.map_cons, List.nodup_cons] at hn
    have hp := hN p (by simp)
    rw [wordL_cons, siteOp, dif_pos hp, onSite_mul]
    simp only [ih hn.2 (fun q hq => hN q (by simp [hq]))]
    set i : Fin N := ⟨p.2, hp⟩ with hi
    rw [← Finset.mul_prod_erase Finset.univ (fun j : Fin N => siteMat u (at' (p :: l) j) (t j) (s j)) (Finset.mem_univ i)]
    have e1 : siteMat u (at' (p :: l) (i : Nat)) (t i) (s i) = u p.1 (t i) (s i) := by
      rw [at'_cons, if_pos rfl]; rfl
    have e2 : ∏ j ∈ Finset.univ.erase i, siteMat u (at' (p :: l) (j : Nat)) (t j) (s j) = ∏ j ∈ Finset.univ.erase i, siteMat u (at' l (j : Nat)) (t j) (s j) := by
      refine Finset.prod_congr rfl fun j hj => ?_
      rw [at'_cons, if_neg]
      intro h
      exact (Finset.mem_erase.1 hj).1 (Fin.ext h.symm)
    rw [e1, e2]
    have e3 : ∀ a : Fin b, ∏ j : Fin N, siteMat u (at' l (j : Nat)) (Function.update t i a j) (s j) =
        (if a = s i then 1 else 0) * ∏ j ∈ Finset.univ.erase i, siteMat u (at' l (j : Nat)) (t j) (s j) := by
      intro a
      rw [← Finset.mul_prod_erase Finset.univ _ (Finset.mem_univ i), Function.update_self]
      congr 1
      · rw [show at' l (i : Nat) = none from at'_none hn.1]; rfl
      · refine Finset.prod_congr rfl fun j hj => ?_
        rw [Function.update_of_ne (Finset.mem_erase.1 hj).1]
    simp only [e3, ite_mul, one_mul, zero_mul, mul_ite, mul_zero]
    rw [Finset.sum_ite_eq' Finset.univ (s i), if_pos (Finset.mem_univ _)]

/-- Matrices dual to the characters. -/
def Dual (u : Char → Nat → Nat → ℂ) (S : Char → Prop) (d : Option Char → Fin b → Fin b → ℂ) : Prop :=
  ∀ x y : Option Char, (∀ c, x = some c → S c) → (∀ c, y = some c → S c) → (∑ a, ∑ c, d x a c * siteMat u y a c) = if x = y then 1 else 0

/-- The coefficient of a string. -/
noncomputable def coeff (d : Option Char → Fin b → Fin b → ℂ) (l : List (Char × Nat)) (M : Matrix (Conf b N) (Conf b N) ℂ) : ℂ :=
  ∑ t : Conf b N, ∑ s : Conf b N, (∏ i : Fin N, d (at' l i) (t i) (s i)) * M t s

theorem coeff_word {u : Char → Nat → Nat → ℂ} {S : Char → Prop} {d : Option Char → Fin b → Fin b → ℂ} (hd : Dual u S d) (k l : List (Char × Nat))
    (hk : (k.map Prod.snd).Nodup) (hkS : ∀ p ∈ k, S p.1)
    (hn : (l.map Prod.snd).Nodup) (hN : ∀ p ∈ l, p.2 < N) (hS : ∀ p ∈ l, S p.1) :
    coeff d k (wordL (siteOp b N u) l) = if ∀ i : Fin N, at' k i = at' l i then 1 else 0 := by
  unfold coeff
  simp only [word_entry u l hn hN, ← Finset.prod_mul_distrib]
  have h1 : ∑ t : Conf b N, ∑ s : Conf b N, ∏ i : Fin N, d (at' k i) (t i) (s i) * siteMat u (at' l i) (t i) (s i) =
      ∏ i : Fin N, ∑ a : Fin b, ∑ c : Fin b, d (at' k i) a c * siteMat u (at' l i) a c := by
    have h2 : ∀ i : Fin N, ∑ a : Fin b, ∑ c : Fin b, d (at' k i) a c * siteMat u (at' l i) a c =
        ∑ p : Fin b × Fin b, d (at' k i) p.1 p.2 * siteMat u (at' l i) p.1 p.2 := fun i => by
      rw [Fintype.sum_prod_type]
    rw [Finset.prod_congr rfl fun i _ => h2 i, Finset.prod_univ_sum, ← Fintype.sum_prod_type']
    refine Finset.sum_bij' (fun (p : Conf b N × Conf b N) _ => fun i => (p.1 i, p.2 i)) (fun f _ => (fun i => (f i).1, fun i => (f i).2)) ?_ ?_ ?_ ?_ ?_
    · intro p _; simp
    · intro f _; simp
    · intro p _; rfl
    · intro f _; rfl
    · intro p _; rfl
  rw [h1]
  have h3 : ∀ i : Fin N, ∑ a : Fin b, ∑ c : Fin b, d (at' k i) a c * siteMat u (at' l i) a c = if at' k i = at' l i then 1 else 0 := by
    intro i
    exact hd _ _ (fun c hc => hkS _ ((at'_iff hk c i).1 hc)) (fun c hc => hS _ ((at'_iff hn c i).1 hc))
  rw [Finset.prod_congr rfl fun i _ => h3 i, Finset.prod_ite_zero]
  simp

theorem coeff_sum (d : Option Char → Fin b → Fin b → ℂ) (k : List (Char × Nat)) {α : Type} (L : List α) (x : α → ℂ) (M : α → Matrix (Conf b N) (Conf b N) ℂ) :
    coeff d k ((L.map fun a => x a • M a).sum) = (L.map fun a => x a * coeff d k (M a)).sum := by
  induction L with
  | nil => simp [coeff]
  | cons a L ih =>
    rw [List.map_cons, List.sum_cons, List.map_cons, List.sum_cons, ← ih]
    unfold coeff
    rw [Finset.mul_sum, ← Finset.sum_add_distrib]
    refine Finset.sum_congr rfl fun t _ => ?_
    rw [Finset.mul_sum, ← Finset.sum_add_distrib]
    refine Finset.sum_congr rfl fun s _ => ?_
    rw [Matrix.add_apply, Matrix.smul_apply, smul_eq_mul]
    ring

/-- Sorted strings on distinct sites with the same characters are the same. -/
theorem at'_inj {k l : List (Char × Nat)} (hk : k.Pairwise fun a c => a.2 < c.2) (hl : l.Pairwise fun a c => a.2 < c.2)
    (hkN : ∀ p ∈ k, p.2 < N) (hlN : ∀ p ∈ l, p.2 < N) (h : ∀ i : Fin N, at' k i = at' l i) : k = l := by
  have nk : (k.map Prod.snd).Nodup := by
    rw [List.Nodup, List.pairwise_map]; exact hk.imp fun h => Nat.ne_of_lt h
  have nl : (l.map Prod.snd).Nodup := by
    rw [List.Nodup, List.pairwise_map]; exact hl.imp fun h => Nat.ne_of_lt h
  have hmem : ∀ p, p ∈ k ↔ p ∈ l := by
    rintro ⟨c, i⟩
    constructor
    · intro hp
      have := h ⟨i, hkN _ hp⟩
      rw [(at'_iff nk c i).2 hp] at this
      exact (at'_iff nl c i).1 this.symm
    · intro hp
      have := h ⟨i, hlN _ hp⟩
      rw [(at'_iff nl c i).2 hp] at this
      exact (at'_iff nk c i).1 this
  have hperm : k.Perm l := (List.perm_ext_iff_of_nodup (List.Nodup.of_map _ nk) (List.Nodup.of_map _ nl)).2 hmem
  exact List.Perm.eq_of_pairwise (fun a c _ _ h1 h2 => absurd h1 (by omega)) hk hl hperm

/-- A dual basis for the identity, a diagonal matrix and two ladder matrices. -/
theorem dual_exists (hb : 2 ≤ b) {u : Char → Nat → Nat → ℂ} (hu : Ladder u) (D : Char) (hD : D ≠ '+' ∧ D ≠ '-' ∧ D ≠ 'x' ∧ D ≠ 'y')
    (h1 : u D 1 1 ≠ u D 0 0) (h2 : u '+' 1 0 ≠ 0) (h3 : u '-' 0 1 ≠ 0) :
    ∃ d : Option Char → Fin b → Fin b → ℂ, Dual u (fun c => c = D ∨ c = '+' ∨ c = '-') d := by
  let E : Nat → Nat → Fin b → Fin b → ℂ := fun i j a c => if (a : Nat) = i ∧ (c : Nat) = j then 1 else 0
  have hE : ∀ (i j : Nat) (hi : i < b) (hj : j < b) (x : ℂ) (m : Fin b → Fin b → ℂ), (∑ a, ∑ c, x * E i j a c * m a c) = x * m ⟨i, hi⟩ ⟨j, hj⟩ := by
    intro i j hi hj x m
    rw [Finset.sum_eq_single ⟨i, hi⟩, Finset.sum_eq_single ⟨j, hj⟩]
    · simp [E]
    · intro c _ hc
      have : (c : Nat) ≠ j := fun h => hc (Fin.ext h)
      simp [E, this]
    · simp
    · intro a _ ha
      have : (a : Nat) ≠ i := fun h => ha (Fin.ext h)
      simp [E, this]
    · simp
  have h1' : u D 1 1 - u D 0 0 ≠ 0 := sub_ne_zero.2 h1
  have b0 : 0 < b := by omega
  have b1 : 1 < b := by omega
  have z1 : u D 0 1 = 0 := by by_contra h; exact absurd (hu.2.2 D hD.1 hD.2.1 hD.2.2.1 hD.2.2.2 _ _ h) (by decide)
  have z2 : u D 1 0 = 0 := by by_contra h; exact absurd (hu.2.2 D hD.1 hD.2.1 hD.2.2.1 hD.2.2.2 _ _ h) (by decide)
  have p1 : u '+' 0 0 = 0 := by by_contra h; exact absurd (hu.1 _ _ h) (by decide)
  have p2 : u '+' 1 1 = 0 := by by_contra h; exact absurd (hu.1 _ _ h) (by decide)
  have p3 : u '+' 0 1 = 0 := by by_contra h; exact absurd (hu.1 _ _ h) (by decide)
  have m1 : u '-' 0 0 = 0 := by by_contra h; exact absurd (hu.2.1 _ _ h) (by decide)
  have m2 : u '-' 1 1 = 0 := by by_contra h; exact absurd (hu.2.1 _ _ h) (by decide)
  have m3 : u '-' 1 0 = 0 := by by_contra h; exact absurd (hu.2.1 _ _ h) (by decide)
  let d : Option Char → Fin b → Fin b → ℂ := fun x a c =>
    if x = none then u D 1 1 / (u D 1 1 - u D 0 0) * E 0 0 a c + -(u D 0 0 / (u D 1 1 - u D 0 0)) * E 1 1 a c
    else if x = some D then 1 / (u D 1 1 - u D 0 0) * E 1 1 a c + -(1 / (u D 1 1 - u D 0 0)) * E 0 0 a c
    else if x = some '+' then (1 / u '+' 1 0) * E 1 0 a c else (1 / u '-' 0 1) * E 0 1 a c
  have hd0 : ∀ m : Fin b → Fin b → ℂ, (∑ a, ∑ c, d none a c * m a c) =
      u D 1 1 / (u D 1 1 - u D 0 0) * m ⟨0, b0⟩ ⟨0, b0⟩ - u D 0 0 / (u D 1 1 - u D 0 0) * m ⟨1, b1⟩ ⟨1, b1⟩ := by
    intro m
    simp only [d, if_true, add_mul, Finset.sum_add_distrib, hE 0 0 b0 b0, hE 1 1 b1 b1]
    ring
  have hd1 : ∀ m : Fin b → Fin b → ℂ, (∑ a, ∑ c, d (some D) a c * m a c) =
      1 / (u D 1 1 - u D 0 0) * m ⟨1, b1⟩ ⟨1, b1⟩ - 1 / (u D 1 1 - u D 0 0) * m ⟨0, b0⟩ ⟨0, b0⟩ := by
    intro m
    simp only [d, if_true, add_mul, Finset.sum_add_distrib, hE 0 0 b0 b0, hE 1 1 b1 b1, reduceCtorEq, if_false]
    ring
  have hd2 : ∀ m : Fin b → Fin b → ℂ, (∑ a, ∑ c, d (some '+') a c * m a c) = 1 / u '+' 1 0 * m ⟨1, b1⟩ ⟨0, b0⟩ := by
    intro m
    have : ¬(some '+' = some D) := fun h => hD.1 (Option.some.inj h).symm
    simp only [d, if_true, this, hE 1 0 b1 b0, reduceCtorEq, if_false]
  have hd3 : ∀ m : Fin b → Fin b → ℂ, (∑ a, ∑ c, d (some '-') a c * m a c) = 1 / u '-' 0 1 * m ⟨0, b0⟩ ⟨1, b1⟩ := by
    intro m
    have h : ¬(some '-' = some D) := fun h => hD.2.1 (Option.some.inj h).symm
    have h' : ¬(some '-' = some '+') := by decide
    simp only [d, if_neg h, if_neg h', hE 0 1 b0 b1, reduceCtorEq, if_false]
  refine ⟨d, ?_⟩
  intro x y hx hy
  have hx' : x = none ∨ x = some D ∨ x = some '+' ∨ x = some '-' := by
    rcases x with _ | c
    · simp
    · rcases hx c rfl with rfl | rfl | rfl <;> simp
  have hy' : y = none ∨ y = some D ∨ y = some '+' ∨ y = some '-' := by
    rcases y with _ | c
    · simp
    · rcases hy c rfl with rfl | rfl | rfl <;> simp
  have n1 : ¬(D = '+') := hD.1
  have n2 : ¬(D = '-') := hD.2.1
  have n3 : ¬('+' = D) := fun h => n1 h.symm
  have n4 : ¬('-' = D) := fun h => n2 h.symm
  rcases hx' with rfl | rfl | rfl | rfl <;> rcases hy' with rfl | rfl | rfl | rfl <;>
    simp only [hd0, hd1, hd2, hd3, siteMat, Option.elim_none, Option.elim_some, z1, z2, p1, p2, p3, m1, m2, m3, Option.some.injEq, n1, n2, n3, n4,
      reduceCtorEq, if_true, if_false, Fin.mk.injEq, zero_ne_one, one_ne_zero, show ¬('+' = '-') by decide, show ¬('-' = '+') by decide] <;>
    field_simp <;> ring

end Proof.OpStr

namespace Proof.OpStr
open Model.OpStr Spec Proof.Lattice

variable {b N : Nat}

/-- A sorted term on distinct sites, of the characters `D`, `+`, `-`. -/
structure Canon (N : Nat) (D : Char) (o : Op) : Prop where
  len : o.str.length = o.indx.length
  sorted : (o.str.zip o.indx).Pairwise fun a c => a.2 < c.2
  sites : ∀ p ∈ o.str.zip o.indx, p.2 < N
  chars : ∀ c ∈ o.str, c = D ∨ c = '+' ∨ c = '-'

theorem canon_sort {D : Char} {op r : Op} (h : sortSite op = some r) (hn : op.indx.Nodup) (hN : ∀ i ∈ op.indx, i < N)
    (hS : ∀ c ∈ op.str, c = D ∨ c = '+' ∨ c = '-') : Canon N D r := by
  obtain ⟨h1, h2, h3⟩ := sortSite_perm h
  have hp := perm_parts h1 h2 h3
  have hs := sortSite_sorted h
  have hn' : r.indx.Nodup := hp.2.symm.nodup hn
  refine ⟨h2, ?_, fun p hp' => hN _ ((hp.2.mem_iff).1 (List.of_mem_zip hp').2), fun c hc => hS c ((hp.1.mem_iff).1 hc)⟩
  have hlt : r.indx.Pairwise (· < ·) := (hs.and hn').imp fun ⟨a, b⟩ => Nat.lt_of_le_of_ne a b
  have : ((r.str.zip r.indx).map Prod.snd).Pairwise (· < ·) := by rw [List.map_snd_zip (by omega)]; exact hlt
  exact List.pairwise_map.1 this

theorem hcChar_mem {D c : Char} (hD : D ≠ '%') (h : c = D ∨ c = '+' ∨ c = '-') : hcChar c = D ∨ hcChar c = '+' ∨ hcChar c = '-' := by
  rcases h with rfl | rfl | rfl
  · rw [hcChar_eq hD]
    split
    · simp
    · split <;> simp
  · right; right; decide
  · right; left; decide

theorem hcChar_invol {c : Char} (h : c ≠ '%') : hcChar (hcChar c) = c := by
  have : hcChar c ≠ '%' := by
    rw [hcChar_eq h]
    split
    · decide
    · split
      · decide
      · exact h
  rw [hcChar_eq this, hcChar_eq h]
  by_cases h1 : c = '+'
  · subst h1; decide
  · by_cases h2 : c = '-'
    · subst h2; decide
    · simp [h1, h2]

/-- The conjugate of a canonical term: it exists, is canonical, and its characters are the exchanged ones on the same sites. -/
theorem canon_hc {D : Char} (hD : D ≠ '%' ∧ D ≠ '|') {o : Op} (h : Canon N D o) : ∃ r, hcSite o = some r ∧ Canon N D r ∧
    (r.str.zip r.indx).Perm ((o.str.zip o.indx).map fun p => (hcChar p.1, p.2)) := by
  have hchars : ∀ c ∈ (reversed o).str, c = D ∨ c = '+' ∨ c = '-' := by
    intro c hc
    simp only [reversed, List.mem_reverse, List.mem_map] at hc
    obtain ⟨e, he, rfl⟩ := hc
    exact hcChar_mem hD.1 (h.chars e he)
  have hsome : ∃ r, hcSite o = some r := by
    rw [← Option.ne_none_iff_exists', hcSite, Ne, sortSite_none]
    push Not
    refine ⟨fun hm => ?_, by simp [reversed, h.len]⟩
    rcases hchars _ hm with e | e | e
    · exact hD.2 e.symm
    · exact absurd e (by decide)
    · exact absurd e (by decide)
  obtain ⟨r, hr⟩ := hsome
  refine ⟨r, hr, ?_, ?_⟩
  · refine canon_sort hr ?_ ?_ hchars
    · simp only [reversed, List.nodup_reverse]
      have : ((o.str.zip o.indx).map Prod.snd).Nodup := by
        rw [List.Nodup, List.pairwise_map]; exact h.sorted.imp fun h => Nat.ne_of_lt h
      rwa [List.map_snd_zip (by rw [h.len])] at this
    · intro i hi
      simp only [reversed, List.mem_reverse] at hi
      have : i ∈ (o.str.zip o.indx).map Prod.snd := by rw [List.map_snd_zip (by rw [h.len])]; exact hi
      obtain ⟨p, hp, rfl⟩ := List.mem_map.1 this
      exact h.sites p hp
  · obtain ⟨h1, h2, h3⟩ := sortSite_perm hr
    refine h3.trans ?_
    simp only [reversed]
    rw [zip_reverse _ _ (by simpa using h.len), List.zip_map_left]
    exact (List.reverse_perm _)

theorem canon_ext {D : Char} {o o' : Op} (h : Canon N D o) (h' : Canon N D o') (hz : (o.str.zip o.indx).Perm (o'.str.zip o'.indx)) :
    o.str = o'.str ∧ o.indx = o'.indx := by
  have : o.str.zip o.indx = o'.str.zip o'.indx :=
    List.Perm.eq_of_pairwise (fun a c _ _ h1 h2 => absurd h1 (by omega)) h.sorted h'.sorted hz
  have a := congrArg (List.map Prod.fst) this
  have c := congrArg (List.map Prod.snd) this
  rw [List.map_fst_zip (by rw [h.len]), List.map_fst_zip (by rw [h'.len])] at a
  rw [List.map_snd_zip (by rw [h.len]), List.map_snd_zip (by rw [h'.len])] at c
  exact ⟨a, c⟩

theorem sum_key {κ : Type} [DecidableEq κ] (f : Op → κ) (L : List Op) (hn : (L.map f).Nodup) (k : κ) :
    (∀ x ∈ L, f x = k → (L.map fun o => o.J * if k = f o then 1 else 0).sum = x.J) ∧
    ((∀ x ∈ L, f x ≠ k) → (L.map fun o => o.J * if k = f o then 1 else 0).sum = 0) := by
  induction L with
  | nil => simp
  | cons a L ih =>
    rw [List.map_cons, List.nodup_cons] at hn
    obtain ⟨i1, i2⟩ := ih hn.2
    refine ⟨fun x hx hk => ?_, fun h => ?_⟩
    · rw [List.map_cons, List.sum_cons]
      rcases List.mem_cons.1 hx with rfl | hx
      · rw [if_pos hk.symm, i2, mul_one, add_zero]
        intro y hy hyk
        exact hn.1 (List.mem_map.2 ⟨y, hy, hyk.trans hk.symm⟩)
      · rw [if_neg, mul_zero, zero_add, i1 x hx hk]
        intro h
        exact hn.1 (List.mem_map.2 ⟨x, hx, hk.trans h⟩)
    · rw [List.map_cons, List.sum_cons, if_neg (fun e => h a (by simp) e.symm), mul_zero, zero_add]
      exact i2 fun x hx => h x (by simp [hx])

/-- Canonical terms with the same sum: every term of the first with a coupling is among the second. -/
theorem canon_terms {u : Char → Nat → Nat → ℂ} {D : Char} {d : Option Char → Fin b → Fin b → ℂ} (hd : Dual u (fun c => c = D ∨ c = '+' ∨ c = '-') d)
    {s r : List Op} (hs : ∀ o ∈ s, Canon N D o) (hr : ∀ o ∈ r, Canon N D o) (ns : (s.map fun o => (o.str, o.indx)).Nodup)
    (nr : (r.map fun o => (o.str, o.indx)).Nodup) (h : (s.map (val (siteOp b N u))).sum = (r.map (val (siteOp b N u))).sum) :
    ∀ x ∈ s, x.J ≠ 0 → x ∈ r := by
  intro x hx hJ
  have nod : ∀ o, Canon N D o → ((o.str.zip o.indx).map Prod.snd).Nodup := fun o ho => by
    rw [List.Nodup, List.pairwise_map]; exact ho.sorted.imp fun h => Nat.ne_of_lt h
  have hch : ∀ o, Canon N D o → ∀ p ∈ o.str.zip o.indx, p.1 = D ∨ p.1 = '+' ∨ p.1 = '-' := fun o ho p hp => ho.chars _ (List.of_mem_zip hp).1
  have key : ∀ L : List Op, (∀ o ∈ L, Canon N D o) → coeff d (x.str.zip x.indx) ((L.map (val (siteOp b N u))).sum) =
      (L.map fun o => o.J * if (x.str, x.indx) = (o.str, o.indx) then 1 else 0).sum := by
    intro L hL
    have := coeff_sum d (x.str.zip x.indx) L (fun o => o.J) (fun o => wordL (siteOp b N u) (o.str.zip o.indx))
    refine this.trans ?_
    congr 1
    refine List.map_congr_left fun o ho => ?_
    rw [coeff_word hd _ _ (nod x (hs x hx)) (hch x (hs x hx)) (nod o (hL o ho)) (hL o ho).sites (hch o (hL o ho))]
    congr 1
    by_cases hk : (x.str, x.indx) = (o.str, o.indx)
    · rw [if_pos hk, if_pos]
      intro i
      have h1 := congrArg Prod.fst hk
      have h2 := congrArg Prod.snd hk
      simp only at h1 h2
      rw [h1, h2]
    · rw [if_neg hk, if_neg]
      intro hi
      have := at'_inj (hs x hx).sorted (hL o ho).sorted (hs x hx).sites (hL o ho).sites hi
      have := canon_ext (hs x hx) (hL o ho) (by rw [this])
      exact hk (Prod.ext this.1 this.2)
  have e1 := key s hs
  have e2 := key r hr
  rw [← h, e1, (sum_key (fun o => (o.str, o.indx)) s ns (x.str, x.indx)).1 x hx rfl] at e2
  by_cases hex : ∃ y ∈ r, (y.str, y.indx) = (x.str, x.indx)
  · obtain ⟨y, hy, hk⟩ := hex
    rw [(sum_key (fun o => (o.str, o.indx)) r nr (x.str, x.indx)).1 y hy hk] at e2
    have : x = y := by
      have h1 := congrArg Prod.fst hk
      have h2 := congrArg Prod.snd hk
      exact Op.ext h1.symm h2.symm e2
    rw [this]; exact hy
  · push Not at hex
    rw [(sum_key (fun o => (o.str, o.indx)) r nr (x.str, x.indx)).2 hex] at e2
    exact absurd e2 hJ

theorem mapM_exists {α β : Type} {f : α → Option β} {l : List α} (h : ∀ a ∈ l, ∃ b, f a = some b) : ∃ r, l.mapM f = some r := by
  induction l with
  | nil => exact ⟨[], rfl⟩
  | cons a l ih =>
    obtain ⟨b, hb⟩ := h a (by simp)
    obtain ⟨r, hr⟩ := ih (fun x hx => h x (by simp [hx]))
    exact ⟨b :: r, by rw [List.mapM_cons, hb, hr]; rfl⟩

theorem forall₂_nodup {α β κ : Type} {R : α → β → Prop} {f : α → κ} {g : β → κ} {l : List α} {r : List β} (h : List.Forall₂ R l r)
    (hi : ∀ a ∈ l, ∀ a' ∈ l, ∀ b b', R a b → R a' b' → g b = g b' → f a = f a') (hn : (l.map f).Nodup) : (r.map g).Nodup := by
  induction h with
  | nil => simp
  | @cons a b l r hab h ih =>
    rw [List.map_cons, List.nodup_cons] at hn ⊢
    refine ⟨fun hm => ?_, ih (fun a ha a' ha' => hi a (by simp [ha]) a' (by simp [ha'])) hn.2⟩
    obtain ⟨b', hb', he⟩ := List.mem_map.1 hm
    obtain ⟨a', ha', hr⟩ := forall₂_mem h hb'
    exact hn.1 (List.mem_map.2 ⟨a', ha', hi a' (by simp [ha']) a (by simp) b' b hr hab he⟩)

end Proof.OpStr
