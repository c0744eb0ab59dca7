import Verif.Proof.CheckSymmMoves

namespace Proof.CheckSymm
open Model.OpStr Model.CheckSymm Spec Proof.OpStr Proof.Lattice

variable {b N : Nat}

theorem moveSites_comp (σ τ : Equiv.Perm (Fin N)) :
    moveSites b N (σ * τ) (fun _ => false) = moveSites b N σ (fun _ => false) * moveSites b N τ fun _ => false := by
  ext t s
  rw [mul_moveSites, moveSites_eq, moveSites_eq]
  refine if_congr ?_ rfl rfl
  have : moveConf (b := b) (σ * τ) (fun _ => false) s = moveConf σ (fun _ => false) (moveConf τ (fun _ => false) s) := by
    funext j
    rfl
  rw [this]

theorem moveSites_pow (σ : Equiv.Perm (Fin N)) (i : Nat) : moveSites b N (σ ^ i) (fun _ => false) = moveSites b N σ (fun _ => false) ^ i := by
  induction i with
  | zero =>
    ext t s
    rw [pow_zero, pow_zero, moveSites_eq, Matrix.one_apply]
    refine if_congr ?_ rfl rfl
    have : moveConf (b := b) (1 : Equiv.Perm (Fin N)) (fun _ => false) s = s := by
      funext j
      rfl
    rw [this]
  | succ i ih => rw [pow_succ, pow_succ, moveSites_comp, ih]

theorem pow_shift {L a : Nat} {σ : Equiv.Perm (Fin L)} (hσ : ∀ j, (σ j : Nat) = (j + a) % L) (i : Nat) : ∀ j, ((σ ^ i) j : Nat) = (j + i * a) % L := by
  induction i with
  | zero => intro j; simp [Nat.mod_eq_of_lt j.2]
  | succ i ih =>
    intro j
    rw [pow_succ', Equiv.Perm.mul_apply, hσ, ih, Nat.mod_add_mod]
    congr 1
    ring

/-- The check finds the transformed terms of a symmetric list of canonical terms. -/
theorem exact_closed {u : Char → Nat → Nat → ℂ} (hb : 2 ≤ b) (hl : Ladder u) (D : Char)
    (hD : D ≠ '+' ∧ D ≠ '-' ∧ D ≠ 'x' ∧ D ≠ 'y' ∧ D ≠ '%' ∧ D ≠ '|') (hD' : u D 1 1 ≠ u D 0 0) (hp : u '+' 1 0 ≠ 0) (hm : u '-' 0 1 ≠ 0)
    (σ : Equiv.Perm (Fin N)) (flip : Fin N → Bool) (hu : (∃ i, flip i = true) → InvertsSpins b u ∧ D = 'z') (move : Op → Op)
    {s : List Op} (hs : ∀ o ∈ s, Canon N D o ∧ o.J ≠ 0) (hk : (s.map fun o => (o.str, o.indx)).Nodup)
    (hso : ∀ o ∈ s, (letters o).Pairwise fun a b => a.2 ≤ b.2)
    (hmove : ∀ o ∈ s, Moved (moveLetter σ flip) (letterSign flip) o (move o) ∧ (move o).str.length = (move o).indx.length)
    (hU : moveSites b N σ flip * (s.map (val (siteOp b N u))).sum = (s.map (val (siteOp b N u))).sum * moveSites b N σ flip) :
    ∀ o ∈ s, ∃ r, sortSite (move o) = some r ∧ r ∈ s := by
  have hmov : ∀ o ∈ s, ∀ p ∈ letters o, Movable flip p := by
    intro o ho p hp
    refine ⟨(hs o ho).1.sites p hp, fun h hf => ?_⟩
    rcases (hs o ho).1.chars _ (List.of_mem_zip hp).1 with h | h | h
    · rw [h, (hu ⟨_, hf⟩).2]; simp [SpinLetter]
    · rw [h]; simp [SpinLetter]
    · rw [h]; simp [SpinLetter]
  have hg := moves_sites σ flip
  have hchars : ∀ o ∈ s, ∀ c ∈ (move o).str, c = D ∨ c = '+' ∨ c = '-' := by
    intro o ho c hc
    obtain ⟨h1, h2⟩ := hmove o ho
    have : c ∈ (letters (move o)).map Prod.fst := by rw [letters, List.map_fst_zip (by omega)]; exact hc
    obtain ⟨q, hq, rfl⟩ := List.mem_map.1 this
    rw [h1.letters] at hq
    obtain ⟨p, hp, rfl⟩ := List.mem_map.1 hq
    have hpc := (hs o ho).1.chars _ (List.of_mem_zip hp).1
    have hlt := (hs o ho).1.sites p hp
    simp only [moveLetter, dif_pos hlt]
    split
    · rename_i hf
      have hz := (hu ⟨_, hf⟩).2
      subst hz
      rcases hpc with h | h | h <;> rw [h] <;> decide
    · exact hpc
  have hsites : ∀ o ∈ s, (move o).indx.Nodup ∧ ∀ i ∈ (move o).indx, i < N := by
    intro o ho
    obtain ⟨h1, h2⟩ := hmove o ho
    have e : (move o).indx = ((letters o).map (moveLetter σ flip)).map Prod.snd := by
      rw [← h1.letters, letters, List.map_snd_zip (by omega)]
    rw [e]
    refine ⟨?_, fun i hi => ?_⟩
    · rw [List.map_map, List.Nodup, List.pairwise_map]
      refine List.Pairwise.imp_of_mem ?_ (hs o ho).1.sorted
      intro p q hp hq hpq he
      have := (hg.site p q (hmov o ho p hp) (hmov o ho q hq)).1 he
      omega
    · obtain ⟨q, hq, rfl⟩ := List.mem_map.1 hi
      obtain ⟨p, hp, rfl⟩ := List.mem_map.1 hq
      have hlt := (hs o ho).1.sites p hp
      simp only [moveLetter, dif_pos hlt]
      exact Fin.is_lt _
  have hnobar : ∀ o ∈ s, '|' ∉ (move o).str := by
    intro o ho hb
    rcases hchars o ho _ hb with h | h | h
    · exact hD.2.2.2.2.2 h.symm
    · exact absurd h (by decide)
    · exact absurd h (by decide)
  have hex : ∀ o ∈ s, ∃ r, sortSite (move o) = some r := fun o ho => stable_site.total _ (hmove o ho).2 (hnobar o ho)
  obtain ⟨r, hr⟩ := exists_image (R := fun (o q : Op) => o ∈ s ∧ sortSite (move o) = some q) (l := s) fun o ho => by
    obtain ⟨q, hq⟩ := hex o ho
    exact ⟨q, ho, hq⟩
  have hcr : ∀ q ∈ r, Canon N D q ∧ q.J ≠ 0 := by
    intro q hq
    obtain ⟨o, -, ho, h⟩ := forall₂_mem hr hq
    refine ⟨canon_sort h (hsites o ho).1 (hsites o ho).2 (hchars o ho), ?_⟩
    rw [stable_site.coupling _ _ h, mul_one, (hmove o ho).1.coupling]
    exact mul_ne_zero (hs o ho).2 (prod_ne fun p hp => hg.ne p (hmov o ho p hp))
  have hkr : (r.map fun o => (o.str, o.indx)).Nodup := by
    refine forall₂_nodup (f := fun o => (o.str, o.indx)) hr ?_ hk
    rintro a - a' - q q' ⟨ha, h⟩ ⟨ha', h'⟩ e
    have e1 := congrArg Prod.fst e
    have e2 := congrArg Prod.snd e
    simp only at e1 e2
    have := (moved_inj hg stable_site (hmov a ha) (hmov a' ha') (hs a ha).1.len (hs a' ha').1.len (hso a ha) (hso a' ha')
      (hmove a ha).1 (hmove a' ha').1 h h' (by rw [letters, letters, e1, e2])).1
    have := op_ext (o := ⟨a.str, a.indx, 0⟩) (o' := ⟨a'.str, a'.indx, 0⟩) (hs a ha).1.len (hs a' ha').1.len this rfl
    rw [Op.mk.injEq] at this
    exact Prod.ext this.1 this.2.1
  have hsum : (r.map (val (siteOp b N u))).sum = (s.map (val (siteOp b N u))).sum := by
    refine moveSites_cancel σ flip ?_
    rw [← hU, ← List.sum_map_mul_left, ← List.sum_map_mul_right]
    refine forall₂_sum ?_ hr
    rintro o q ⟨ho, h⟩
    rw [moved_val (moveSites_siteOp σ flip fun h => (hu h).1) (hmov o ho) (hmove o ho).1,
      sortSite_val (fun o q _ _ hij => siteOp_commute _ o q hij) h]
  obtain ⟨d, hd⟩ := dual_exists hb hl D ⟨hD.1, hD.2.1, hD.2.2.1, hD.2.2.2.1⟩ hD' hp hm
  have hin := canon_terms hd (fun o ho => (hcr o ho).1) (fun o ho => (hs o ho).1) hkr hk hsum
  intro o ho
  obtain ⟨q, hq⟩ := hex o ho
  refine ⟨q, hq, ?_⟩
  have hqr : q ∈ r := by
    clear hsum hkr hcr hin
    have : ∀ {l l' : List Op}, List.Forall₂ (fun (o q : Op) => o ∈ s ∧ sortSite (move o) = some q) l l' → o ∈ l → q ∈ l' := by
      intro l l' h
      induction h with
      | nil => simp
      | @cons x y l l' hxy _ ih =>
        intro ho
        rcases List.mem_cons.1 ho with rfl | ho
        · rw [hq] at hxy
          rw [Option.some.inj hxy.2]
          simp
        · exact List.mem_cons_of_mem _ (ih ho)
    exact this hr ho
  exact hin q hqr (hcr q hqr).2

end Proof.CheckSymm
