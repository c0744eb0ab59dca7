import Verif.Model.Embedding

/-!
C91: `get_proj` and `project_from` of tensor bases and of photon bases with a conserved total number.

The matrix of `get_proj` of a tensor basis is the Kronecker product.  The state `k` of a photon basis with `Ntot` quanta is the state `k` of the
particle basis together with `Ntot - Np k` photons.  In both cases `project_from` is the product with the matrix of `get_proj`, and norms and
overlaps of states are kept.
-/

namespace Props
open Model.Embedding
open scoped Kronecker

/-- Tensor bases: `project_from` is the product with the Kronecker product of the two projectors, for every decomposition of the columns into
products (the singular value decomposition, in whatever order and with whatever phases). -/
theorem C91_tensor {M₁ N₁ M₂ N₂ c : ℕ} (P : Matrix (Fin M₁) (Fin N₁) ℂ) (Q : Matrix (Fin M₂) (Fin N₂) ℂ) (svd : List (Term N₁ N₂ c)) (hne : svd ≠ [])
    (v : Matrix (Fin N₁ × Fin N₂) (Fin c) ℂ) (hv : ∀ a b j, v (a, b) j = (svd.map fun t => t.left a j * t.value j * t.right b j).sum) :
    combine P Q svd = some (tensorProj P Q * v) := by
  have hsum : ∀ (l : List (Term N₁ N₂ c)) (x : Matrix (Fin M₁ × Fin M₂) (Fin c) ℂ),
      l.foldl (fun v t => v + product P Q t) x = x + (l.map (product P Q)).sum := by
    intro l
    induction l with
    | nil => intro x; simp
    | cons t l ih => intro x; rw [List.foldl_cons, ih, List.map_cons, List.sum_cons, add_assoc]
  obtain ⟨l, t, rfl⟩ : ∃ l t, svd = l ++ [t] := ⟨svd.dropLast, svd.getLast hne, (List.dropLast_append_getLast hne).symm⟩
  unfold combine
  rw [List.getLast?_concat, Option.map_some, List.dropLast_concat, hsum]
  congr 1
  have e1 : product P Q t + (l.map (product P Q)).sum = ((l ++ [t]).map (product P Q)).sum := by
    rw [List.map_append, List.sum_append, List.map_singleton, List.sum_singleton, add_comm]
  rw [e1]
  have e2 : v = ((l ++ [t]).map fun t => Matrix.of fun (r : Fin N₁ × Fin N₂) j => t.left r.1 j * t.value j * t.right r.2 j).sum := by
    ext ⟨a, b⟩ j
    rw [hv a b j]
    generalize l ++ [t] = L
    induction L with
    | nil => rfl
    | cons t L ih => rw [List.map_cons, List.sum_cons, List.map_cons, List.sum_cons, Matrix.add_apply, ← ih]; rfl
  rw [e2]
  generalize l ++ [t] = L
  induction L with
  | nil => simp
  | cons t L ih =>
    rw [List.map_cons, List.sum_cons, List.map_cons, List.sum_cons, Matrix.mul_add, ih]
    congr 1
    ext ⟨x, y⟩ j
    unfold product tensorProj
    simp only [Matrix.of_apply, Matrix.mul_apply, Matrix.kroneckerMap_apply, Fintype.sum_prod_type]
    rw [Finset.sum_mul_sum, Finset.sum_mul]
    refine Finset.sum_congr rfl fun a _ => ?_
    rw [Finset.sum_mul]
    refine Finset.sum_congr rfl fun b _ => ?_
    ring

/-- Tensor bases keep overlaps if the parts do. -/
theorem C91_tensor_isometry {M₁ N₁ M₂ N₂ : ℕ} (P : Matrix (Fin M₁) (Fin N₁) ℂ) (Q : Matrix (Fin M₂) (Fin N₂) ℂ)
    (hP : P.conjTranspose * P = 1) (hQ : Q.conjTranspose * Q = 1) : (tensorProj P Q).conjTranspose * tensorProj P Q = 1 := by
  unfold tensorProj
  rw [Matrix.conjTranspose_kronecker, ← Matrix.mul_kronecker_mul, hP, hQ, Matrix.one_kronecker_one]

/-! ### Photon bases -/

/-- The photon numbers of one-dimensional bases with at most 127 quanta. -/
theorem numbers_eq {Ns Ntot : ℕ} (hN : Ntot < 128) (Np : Fin Ns → ℕ) (hNp : ∀ k, Np k ≤ Ntot) :
    numbers false Ntot Np = some fun k => (Ntot : ℤ) - Np k := by
  unfold numbers
  rw [if_neg (by simp)]
  congr 1
  funext k
  have hk := hNp k
  have e1 : Int.bmod ((Np k : ℤ) - Ntot) (2 ^ 8) = (Np k : ℤ) - Ntot := by
    apply Int.bmod_eq_of_le <;> norm_num <;> omega
  rw [e1]
  have e2 : Int.bmod (((Np k : ℤ) - Ntot) * -1) (2 ^ 8) = ((Np k : ℤ) - Ntot) * -1 := by
    apply Int.bmod_eq_of_le <;> norm_num <;> omega
  rw [e2]
  ring

theorem steps_spec {Ns : ℕ} (hNs : 0 < Ns) (n : Fin Ns → ℤ) : ∃ l, steps n = some l ∧ l ≠ [] ∧ l.Nodup ∧ (∀ k, n k ∈ l) ∧
    ∀ x ∈ l, ∃ k k', n k ≤ x ∧ x ≤ n k' := by
  have hne : List.ofFn n ≠ [] := by
    intro h
    have := congrArg List.length h
    simp at this
    omega
  obtain ⟨a, ha⟩ : ∃ a, (List.ofFn n).min? = some a := Option.isSome_iff_exists.1 (by rw [List.isSome_min?_iff]; exact hne)
  obtain ⟨b, hb⟩ : ∃ b, (List.ofFn n).max? = some b := Option.isSome_iff_exists.1 (by rw [List.isSome_max?_iff]; exact hne)
  obtain ⟨a1, a2⟩ := List.min?_eq_some_iff.1 ha
  obtain ⟨b1, b2⟩ := List.max?_eq_some_iff.1 hb
  obtain ⟨ka, rfl⟩ := (List.mem_ofFn' n a).1 a1
  obtain ⟨kb, rfl⟩ := (List.mem_ofFn' n b).1 b1
  have hab : n ka ≤ n kb := b2 _ ((List.mem_ofFn' n _).2 ⟨ka, rfl⟩)
  refine ⟨n ka :: (List.range (n kb - n ka).toNat).map fun (i : ℕ) => n ka + 1 + i, ?_, by simp, ?_, fun k => ?_, fun x hx => ?_⟩
  · unfold steps
    rw [ha, hb]
    rfl
  · rw [List.nodup_cons]
    refine ⟨?_, List.Nodup.map (fun i j h => by simpa using h) List.nodup_range⟩
    simp only [List.mem_map, List.mem_range, not_exists, not_and]
    intro i _
    omega
  · have h1 := a2 _ ((List.mem_ofFn' n _).2 ⟨k, rfl⟩)
    have h2 := b2 _ ((List.mem_ofFn' n _).2 ⟨k, rfl⟩)
    rw [List.mem_cons]
    by_cases h : n k = n ka
    · exact Or.inl h
    · refine Or.inr (List.mem_map.2 ⟨(n k - n ka - 1).toNat, List.mem_range.2 (by omega), by omega⟩)
  · rcases List.mem_cons.1 hx with rfl | hx
    · exact ⟨ka, kb, le_rfl, hab⟩
    · obtain ⟨i, hi, rfl⟩ := List.mem_map.1 hx
      have := List.mem_range.1 hi
      exact ⟨ka, kb, by omega, by omega⟩

theorem sumLevels_eq {M c Nph : ℕ} (f : ℤ → Matrix (Fin M) (Fin c) ℂ) (l : List ℤ) (hne : l ≠ []) (hl : ∀ x ∈ l, 0 ≤ x ∧ x ≤ (Nph : ℤ)) :
    sumLevels Nph f l = some (Matrix.of fun r j => (l.map fun x => if x = ((r.2 : ℕ) : ℤ) then f x r.1 j else 0).sum) := by
  have hlev : ∀ x, 0 ≤ x ∧ x ≤ (Nph : ℤ) → ∃ l : Fin (Nph + 1), level Nph x = some l ∧ ((l : ℕ) : ℤ) = x := by
    intro x hx
    refine ⟨⟨x.toNat, by omega⟩, ?_, by simp; omega⟩
    unfold level
    rw [dif_pos hx]
  have hk : ∀ x l, level Nph x = some l → ((l : ℕ) : ℤ) = x → ∀ r j, kron (Nph := Nph) (f x) l r j = if x = ((r.2 : ℕ) : ℤ) then f x r.1 j else 0 := by
    intro x l _ hx r j
    unfold kron
    rw [Matrix.of_apply]
    by_cases h : r.2 = l
    · rw [if_pos h, if_pos (by rw [h, hx]), mul_one]
    · rw [if_neg h, if_neg (by rintro h'; apply h; ext; omega), mul_zero]
  have hfold : ∀ (as : List ℤ), (∀ x ∈ as, 0 ≤ x ∧ x ≤ (Nph : ℤ)) → ∀ v : Matrix (Fin M × Fin (Nph + 1)) (Fin c) ℂ,
      as.foldlM (fun v np => (level Nph np).map fun l => v + kron (f np) l) v =
        some (v + Matrix.of fun r j => (as.map fun x => if x = ((r.2 : ℕ) : ℤ) then f x r.1 j else 0).sum) := by
    intro as
    induction as with
    | nil =>
      intro _ v
      simp only [List.foldlM_nil, List.map_nil, List.sum_nil]
      congr 1
      ext r j
      simp
    | cons x as ih =>
      intro h v
      obtain ⟨l, e1, e2⟩ := hlev x (h x (by simp))
      rw [List.foldlM_cons, e1]
      show (as.foldlM _ (v + kron (f x) l)) = _
      rw [ih (fun y hy => h y (by simp [hy]))]
      congr 1
      ext r j
      simp only [Matrix.add_apply, Matrix.of_apply, List.map_cons, List.sum_cons, hk x l e1 e2 r j, add_assoc]
  obtain ⟨a, as, rfl⟩ := List.exists_cons_of_ne_nil hne
  obtain ⟨l, e1, e2⟩ := hlev a (hl a (by simp))
  show (level Nph a).bind _ = _
  rw [e1, Option.bind_some, hfold as (fun y hy => hl y (by simp [hy]))]
  congr 1
  ext r j
  simp only [Matrix.add_apply, Matrix.of_apply, List.map_cons, List.sum_cons, hk a l e1 e2 r j]

theorem sum_pick (l : List ℤ) (hl : l.Nodup) (m : ℤ) (g : ℤ → ℂ) : (l.map fun x => if x = m then g x else 0).sum = if m ∈ l then g m else 0 := by
  induction l with
  | nil => simp
  | cons a l ih =>
    rw [List.nodup_cons] at hl
    rw [List.map_cons, List.sum_cons, ih hl.2]
    by_cases h : a = m
    · subst h
      rw [if_pos rfl, if_neg hl.1, if_pos (by simp), add_zero]
    · rw [if_neg h, zero_add]
      by_cases h' : m ∈ l
      · rw [if_pos h', if_pos (by simp [h'])]
      · rw [if_neg h', if_neg (by simp [h', Ne.symm h])]

/-- Row `(s, m)`: particle state `s` of the full space, `m` photons; column `k`: state `k` of the particle basis with the rest of the quanta as
photons. -/
def sector {M Ns : ℕ} (P : Matrix (Fin M) (Fin Ns) ℂ) (Ntot Nph : ℕ) (Np : Fin Ns → ℕ) : Matrix (Fin M × Fin (Nph + 1)) (Fin Ns) ℂ :=
  Matrix.of fun r k => if (r.2 : ℕ) + Np k = Ntot then P r.1 k else 0

/-- `get_proj` of a photon basis with a conserved total number, for every cutoff `Nph ≥ Ntot`, with the particles in the full space or in their basis
(`P = 1`).  Partial: one-dimensional bases, at most 127 quanta, at least one state. -/
theorem C91_get_proj_partial {M Ns : ℕ} (hNs : 0 < Ns) (P : Matrix (Fin M) (Fin Ns) ℂ) (Ntot Nph : ℕ) (hN : Ntot < 128) (hph : Ntot ≤ Nph)
    (Np : Fin Ns → ℕ) (hNp : ∀ k, Np k ≤ Ntot) : ∃ n, numbers false Ntot Np = some n ∧ getProj n Ntot Nph P = some (sector P Ntot Nph Np) := by
  refine ⟨_, numbers_eq hN Np hNp, ?_⟩
  obtain ⟨l, h1, h2, h3, h4, h5⟩ := steps_spec hNs fun k => (Ntot : ℤ) - Np k
  unfold getProj
  rw [if_neg (by omega), h1, Option.bind_some, sumLevels_eq _ l h2 fun x hx => by
    obtain ⟨k, k', e1, e2⟩ := h5 x hx
    have := hNp k
    have := hNp k'
    omega]
  congr 1
  ext r k
  simp only [Matrix.of_apply, sector]
  rw [sum_pick l h3]
  simp only [maskCols, Matrix.of_apply]
  have hk := hNp k
  by_cases h : (r.2 : ℕ) + Np k = Ntot
  · have e : (Ntot : ℤ) - Np k = ((r.2 : ℕ) : ℤ) := by omega
    rw [if_pos h, if_pos (by rw [← e]; exact h4 k), if_pos e]
  · rw [if_neg h]
    have e : (Ntot : ℤ) - Np k ≠ ((r.2 : ℕ) : ℤ) := by omega
    rw [if_neg e, ite_self]

/-- `project_from` of a photon basis with a conserved total number is the product with the matrix of `get_proj`.
Missing: bases of the general classes and more than 127 quanta (`C91_fails_general`, `C91_fails_large`). -/
theorem C91_project_from_partial {M Ns c : ℕ} (hNs : 0 < Ns) (P : Matrix (Fin M) (Fin Ns) ℂ) (Ntot Nph : ℕ) (hN : Ntot < 128) (hph : Ntot ≤ Nph)
    (Np : Fin Ns → ℕ) (hNp : ∀ k, Np k ≤ Ntot) (v : Matrix (Fin Ns) (Fin c) ℂ) :
    ∃ n, numbers false Ntot Np = some n ∧ projectFrom n Ntot Nph P v = some (sector P Ntot Nph Np * v) := by
  refine ⟨_, numbers_eq hN Np hNp, ?_⟩
  obtain ⟨l, h1, h2, h3, h4, h5⟩ := steps_spec hNs fun k => (Ntot : ℤ) - Np k
  unfold projectFrom
  rw [if_neg (by omega), h1, Option.bind_some, sumLevels_eq _ l h2 fun x hx => by
    obtain ⟨k, k', e1, e2⟩ := h5 x hx
    have := hNp k
    have := hNp k'
    omega]
  congr 1
  ext r j
  simp only [Matrix.of_apply]
  rw [sum_pick l h3]
  simp only [Matrix.mul_apply, maskRows, sector, Matrix.of_apply]
  by_cases h : ((r.2 : ℕ) : ℤ) ∈ l
  · rw [if_pos h]
    refine Finset.sum_congr rfl fun k _ => ?_
    have hk := hNp k
    by_cases e : (r.2 : ℕ) + Np k = Ntot
    · rw [if_pos (by omega), if_pos e]
    · rw [if_neg (by omega), if_neg e, mul_zero, zero_mul]
  · rw [if_neg h]
    refine (Finset.sum_eq_zero fun k _ => ?_).symm
    have hk := hNp k
    rw [if_neg, zero_mul]
    intro e
    apply h
    have e' : (Ntot : ℤ) - Np k = ((r.2 : ℕ) : ℤ) := by omega
    rw [← e']
    exact h4 k

/-- Overlaps of states are kept if the particle basis keeps them. -/
theorem C91_isometry {M Ns : ℕ} (P : Matrix (Fin M) (Fin Ns) ℂ) (hP : ∀ k k', (P.conjTranspose * P) k k' = if k = k' then 1 else 0)
    (Ntot Nph : ℕ) (hph : Ntot ≤ Nph) (Np : Fin Ns → ℕ) (hNp : ∀ k, Np k ≤ Ntot) :
    (sector P Ntot Nph Np).conjTranspose * sector P Ntot Nph Np = 1 := by
  ext k k'
  have hk := hNp k
  have hk' := hNp k'
  rw [Matrix.one_apply, ← hP k k']
  simp only [Matrix.mul_apply, Matrix.conjTranspose_apply, sector, Matrix.of_apply, Fintype.sum_prod_type]
  by_cases e : Np k = Np k'
  · refine Finset.sum_congr rfl fun s _ => ?_
    rw [Finset.sum_eq_single ⟨Ntot - Np k, by omega⟩]
    · simp only
      rw [if_pos (by omega), if_pos (by omega)]
    · intro m _ hm
      rw [if_neg, star_zero, zero_mul]
      intro h
      apply hm
      ext
      simp only
      omega
    · simp
  · have h0 := hP k k'
    rw [if_neg (by rintro rfl; exact e rfl), Matrix.mul_apply] at h0
    simp only [Matrix.conjTranspose_apply] at h0
    rw [h0]
    refine Finset.sum_eq_zero fun s _ => Finset.sum_eq_zero fun m _ => ?_
    by_cases h : (m : ℕ) + Np k = Ntot
    · rw [if_neg (show ¬(m : ℕ) + Np k' = Ntot by omega), mul_zero]
    · rw [if_neg h, star_zero, zero_mul]

/-- One spin with three quanta: both states have a place. -/
example : ∃ n, numbers false 3 (Ns := 2) ![1, 0] = some n ∧ getProj n 3 5 (1 : Matrix (Fin 2) (Fin 2) ℂ) = some (sector 1 3 5 ![1, 0]) :=
  C91_get_proj_partial (by norm_num) _ 3 5 (by norm_num) (by norm_num) _ (by decide)

/-- One spin and an oscillator of two levels: a state and its decomposition. -/
example : combine (1 : Matrix (Fin 2) (Fin 2) ℂ) (1 : Matrix (Fin 2) (Fin 2) ℂ)
    [⟨Matrix.of fun a _ => if a = 0 then 1 else 0, fun _ => 1, Matrix.of fun a _ => if a = 0 then 1 else 0⟩,
      (⟨Matrix.of fun a _ => if a = 1 then 1 else 0, fun _ => 1, Matrix.of fun a _ => if a = 1 then 1 else 0⟩ : Term 2 2 1)] =
    some (tensorProj (1 : Matrix (Fin 2) (Fin 2) ℂ) (1 : Matrix (Fin 2) (Fin 2) ℂ) * Matrix.of fun (r : Fin 2 × Fin 2) (_ : Fin 1) => if r.1 = r.2 then (1 : ℂ) else 0) := by
  refine C91_tensor _ _ _ (by simp) _ fun a b j => ?_
  fin_cases a <;> fin_cases b <;> simp

/-! ### Defects -/

/-- A photon basis with a conserved total number cannot be built on a basis of the general classes: the photon numbers are computed in unsigned
numbers. -/
theorem C91_fails_general {Ns : ℕ} (Ntot : ℕ) (Np : Fin Ns → ℕ) : numbers true Ntot Np = none := rfl

/-- With 130 quanta the state with the spin down has 130 photons.  Their number is stored as `-126`, and the state is put at the level of 5
photons. -/
theorem C91_fails_large : ∃ n, numbers false 130 (Ns := 1) ![0] = some n ∧
    ∃ x, getProj n 130 130 (1 : Matrix (Fin 1) (Fin 1) ℂ) = some x ∧ x (0, 5) 0 = 1 ∧ x (0, 130) 0 = 0 := by
  have h0 : numbers false 130 (Ns := 1) ![0] = some fun _ => -126 := by
    unfold numbers
    rw [if_neg (by simp)]
    congr 1
    funext k
    fin_cases k
    decide
  refine ⟨_, h0, ?_⟩
  have h1 : steps (Ns := 1) (fun _ => -126) = some [-126] := by decide
  have h2 : level 130 (-126) = some (5 : Fin (130 + 1)) := by decide
  refine ⟨kron (maskCols (fun _ => -126) (-126) 1) 5, ?_, ?_, ?_⟩
  · unfold getProj
    rw [if_neg (by norm_num), h1, Option.bind_some]
    simp only [sumLevels, h2, Option.bind_some, List.foldlM_nil]
    rfl
  · simp [kron, maskCols]
  · simp only [kron, Matrix.of_apply]
    rw [if_neg (by decide), mul_zero]

end Props
