import Verif.Proof.Lanczos
import Mathlib.LinearAlgebra.Matrix.Notation

/-!
C39: the Lanczos routines.

`iter` and `full` are `lanczos_iter` and `lanczos_full`, which return the tridiagonal matrix `(a, b)`; `vectors` are the vectors a loop
over the generator yields, `feps` the precision of the dtype.
-/

namespace Props
open Matrix Model.Lanczos Proof.Lanczos
open Spec.Lanczos (ip norm tridiagonal IsLanczos)

variable {n : Type} [Fintype n]

/-- `lanczos_iter` for a Hermitian matrix: the generator yields an orthonormal basis that starts with the direction of `v0`, satisfies
the three-term recurrence and has `T = Q† A Q`; it has `m` vectors, or fewer if the residual of the last one is smaller than `eps`.
Partial: the start vector must not be within the tolerance of, but different from, length one (`C39_fails_tolerance`). -/
theorem C39_iter_partial {A : Matrix n n ℂ} (hA : A.IsHermitian) (v0 : n → ℂ) (m : ℕ) (eps feps : ℝ)
    (hv : norm v0 = 1 ∨ eps < |norm v0 - 1| ∧ feps < |norm v0 - 1|) (a b : List ℝ) (h : iter A v0 m eps = some (a, b)) :
    ∃ Q, vectors feps A v0 a b = some Q ∧ IsLanczos A v0 Q a b ∧ Q.length ≤ m ∧
      (Q.length < m → ∃ k, k + 1 = Q.length ∧
        norm (A *ᵥ Q.getD k 0 - (if k = 0 then 0 else (b.getD (k - 1) 0 : ℂ) • Q.getD (k - 1) 0) - (a.getD k 0 : ℂ) • Q.getD k 0) < eps) := by
  obtain ⟨p, hp⟩ : ∃ p, states A v0 m eps = some p := by
    unfold iter at h
    rw [Option.map_eq_some_iff] at h
    exact ⟨_, h.choose_spec.1⟩
  obtain ⟨q, k, hq, _, _, hkm, hl, hb, hf, ht, _⟩ := states_some A v0 m eps p hp
  have hi := iter_some A v0 m eps p hp q k hl
  rw [hi, Option.some.injEq, Prod.mk.injEq] at h
  obtain ⟨rfl, rfl⟩ := h
  have hq' : Model.Lanczos.normalize feps v0 = some q := by
    rcases hv with hv | hv
    · rw [normalize_one _ _ hv] at hq ⊢
      exact hq
    · unfold Model.Lanczos.normalize at hq ⊢
      rw [if_pos hv.1] at hq
      rw [if_pos hv.2]
      exact hq
  obtain ⟨h1, h2⟩ := normalize_ip eps v0 q hq (hv.imp id And.left)
  refine ⟨_, vectors_seq feps A v0 q k hq' hb, isLanczos hA h1 h2 k hb, by simpa using hkm, fun hlt => ⟨k, by simp, ?_⟩⟩
  simp only [List.length_map, List.length_range] at hlt
  have hbr : p.2 = true := by
    rcases hb : p.2 with _ | _
    · have := hf hb; omega
    · rfl
  have hlast := (ht hbr).2
  rw [seq_b, seq_r] at hlast
  have hk1 : ((List.range (k + 1)).map fun i => (seq A q i).q).getD k 0 = (seq A q k).q := getD_range _ _ _ _ (by omega)
  have hk2 : ((List.range (k + 1)).map fun i => (seq A q i).a).getD k 0 = (seq A q k).a := getD_range _ _ _ _ (by omega)
  have hk3 : (if k = 0 then 0 else ((((List.range k).map fun i => (seq A q i).b).getD (k - 1) 0 : ℝ) : ℂ) •
      ((List.range (k + 1)).map fun i => (seq A q i).q).getD (k - 1) 0) = back A q k := by
    unfold back
    split_ifs with h0
    · rfl
    · rw [getD_range _ k _ _ (by omega), getD_range _ (k + 1) _ _ (by omega)]
  rw [hk1, hk2, hk3]
  exact hlast

/-- `lanczos_full` for a Hermitian matrix: the vectors are a Lanczos basis for the coefficients.
Missing: a breakdown, where `lanczos_full` drops a vector (`C39_fails_agree`, `C39_fails_eigenvector`), and `full_ortho`, which is not modelled. -/
theorem C39_full_partial {A : Matrix n n ℂ} (hA : A.IsHermitian) (v0 : n → ℂ) (m : ℕ) (eps : ℝ)
    (hv : norm v0 = 1 ∨ eps < |norm v0 - 1|) (a b : List ℝ) (Q : List (n → ℂ)) (h : full A v0 m eps = some (a, b, Q)) :
    IsLanczos A v0 Q a b ∧ Q.length ≤ m := by
  obtain ⟨p, hp⟩ : ∃ p, states A v0 m eps = some p := by
    unfold full at h
    rw [Option.map_eq_some_iff] at h
    exact ⟨_, h.choose_spec.1⟩
  obtain ⟨q, k, hq, _, _, hkm, hl, hb, hf, ht, _⟩ := states_some A v0 m eps p hp
  have hi := full_some A v0 m eps p hp q k hl hf
  rw [hi, Option.some.injEq, Prod.mk.injEq, Prod.mk.injEq] at h
  obtain ⟨rfl, rfl, rfl⟩ := h
  obtain ⟨h1, h2⟩ := normalize_ip eps v0 q hq hv
  rcases hbr : p.2 with _ | _
  · simpa using ⟨isLanczos hA h1 h2 k hb, hkm⟩
  · have hk := (ht hbr).1
    obtain ⟨j, rfl⟩ : ∃ j, k = j + 1 := ⟨k - 1, by omega⟩
    have := isLanczos hA h1 h2 j fun i hi => hb i (by omega)
    simpa using ⟨this, by omega⟩

/-- Both functions return the same tridiagonal matrix, and the generator the rows of `Q`, if all `m` vectors are returned.
Missing: a breakdown, where `lanczos_full` drops a vector (`C39_fails_agree`, `C39_fails_eigenvector`), and `full_ortho`, which is not modelled. -/
theorem C39_agree_partial {A : Matrix n n ℂ} (v0 : n → ℂ) (m : ℕ) (eps : ℝ) (a b : List ℝ) (Q : List (n → ℂ))
    (h : full A v0 m eps = some (a, b, Q)) (hm : Q.length = m) :
    iter A v0 m eps = some (a, b) ∧ vectors eps A v0 a b = some Q := by
  obtain ⟨p, hp⟩ : ∃ p, states A v0 m eps = some p := by
    unfold full at h
    rw [Option.map_eq_some_iff] at h
    exact ⟨_, h.choose_spec.1⟩
  obtain ⟨q, k, hq, _, _, hkm, hl, hb, hf, ht, _⟩ := states_some A v0 m eps p hp
  have hi := full_some A v0 m eps p hp q k hl hf
  rw [hi, Option.some.injEq, Prod.mk.injEq, Prod.mk.injEq] at h
  obtain ⟨rfl, rfl, rfl⟩ := h
  have hbr : p.2 = false := by
    rcases hb : p.2 with _ | _
    · rfl
    · rw [hb] at hm; simp at hm; omega
  rw [iter_some A v0 m eps p hp q k hl]
  simp only [hbr]
  exact ⟨rfl, vectors_seq eps A v0 q k hq hb⟩

/-- DEFECT: when the iteration stops because a number `b` is smaller than `eps`, `lanczos_full` leaves out the last vector that
`lanczos_iter` has: the two results differ for every operator and start vector for which this happens. -/
theorem C39_fails_agree {A : Matrix n n ℂ} (v0 : n → ℂ) (m : ℕ) (eps : ℝ) (a b : List ℝ) (h : iter A v0 m eps = some (a, b))
    (hm : a.length < m) :
    ∃ Q, vectors eps A v0 a b = some Q ∧ full A v0 m eps = some (a.dropLast, b.dropLast, Q.dropLast) ∧ a.dropLast ≠ a := by
  obtain ⟨p, hp⟩ : ∃ p, states A v0 m eps = some p := by
    unfold iter at h
    rw [Option.map_eq_some_iff] at h
    exact ⟨_, h.choose_spec.1⟩
  obtain ⟨q, k, hq, _, _, hkm, hl, hb, hf, ht, _⟩ := states_some A v0 m eps p hp
  rw [iter_some A v0 m eps p hp q k hl, Option.some.injEq, Prod.mk.injEq] at h
  obtain ⟨rfl, rfl⟩ := h
  simp only [List.length_map, List.length_range] at hm
  have hbr : p.2 = true := by
    rcases hb : p.2 with _ | _
    · have := hf hb; omega
    · rfl
  have hdrop {α : Type} (f : ℕ → α) (j : ℕ) : ((List.range j).map f).dropLast = (List.range (j - 1)).map f := by
    cases j with
    | zero => rfl
    | succ j => rw [List.range_succ, List.map_append]; simp
  refine ⟨_, vectors_seq eps A v0 q k hq hb, ?_, ?_⟩
  · rw [full_some A v0 m eps p hp q k hl hf, hbr, hdrop, hdrop, hdrop]
    rfl
  · intro he
    have := congrArg List.length he
    simp at this

/-- Every loop over the generator in a program yields the same vectors, as long as the program does not change an operator or start
vector of which no copy was made. -/
theorem C39_reiterate (feps eps : ℝ) (copyV0 copyA : Bool) (A : Matrix n n ℂ) (v0 : n → ℂ) (m : ℕ) (g : VecIter n)
    (hg : vecIter copyV0 copyA A v0 m eps = some g) (p : List (Event n)) (hA : copyA = true ∨ ∀ M, Event.changeA M ∉ p)
    (hV : copyV0 = true ∨ ∀ v, Event.changeV v ∉ p) :
    ∀ x ∈ history feps g A v0 p, x = vectors feps A v0 g.a g.b := by
  unfold vecIter at hg
  rw [Option.map_eq_some_iff] at hg
  obtain ⟨c, _, rfl⟩ := hg
  have key : ∀ (p : List (Event n)) (A' : Matrix n n ℂ) (v' : n → ℂ), (copyA = true ∨ A' = A ∧ ∀ M, Event.changeA M ∉ p) →
      (copyV0 = true ∨ v' = v0 ∧ ∀ v, Event.changeV v ∉ p) →
      ∀ x ∈ history feps ⟨if copyA then some A else none, if copyV0 then some v0 else none, c.1, c.2⟩ A' v' p,
        x = vectors feps A v0 c.1 c.2 := by
    intro p
    induction p with
    | nil => intro A' v' _ _ x hx; simp [history] at hx
    | cons e p ih =>
      intro A' v' h1 h2
      have h1' : copyA = true ∨ A' = A ∧ ∀ M, Event.changeA M ∉ p :=
        h1.imp id fun h => ⟨h.1, fun M hM => h.2 M (List.mem_cons_of_mem _ hM)⟩
      have h2' : copyV0 = true ∨ v' = v0 ∧ ∀ v, Event.changeV v ∉ p :=
        h2.imp id fun h => ⟨h.1, fun M hM => h.2 M (List.mem_cons_of_mem _ hM)⟩
      cases e with
      | changeA M =>
        exact ih M v' (h1.imp id fun h => absurd List.mem_cons_self (h.2 M)) h2'
      | changeV v =>
        exact ih A' v h1' (h2.imp id fun h => absurd List.mem_cons_self (h.2 v))
      | iterate =>
        intro x hx
        rw [history, List.mem_cons] at hx
        rcases hx with rfl | hx
        · have eA : (if copyA then some A else none).getD A' = A := by
            rcases h1 with h | h
            · simp [h]
            · split_ifs <;> simp [h.1]
          have eV : (if copyV0 then some v0 else none).getD v' = v0 := by
            rcases h2 with h | h
            · simp [h]
            · split_ifs <;> simp [h.1]
          simp only [eA, eV]
        · exact ih A' v' h1' h2' x hx
  exact key p A v0 (hA.imp id fun h => ⟨rfl, h⟩) (hV.imp id fun h => ⟨rfl, h⟩)

/-- `lin_comb_Q_T` is the sum of the vectors with the coefficients. -/
theorem C39_comb (c : List ℂ) (Q : List (n → ℂ)) (hc : c ≠ []) (hQ : Q ≠ []) :
    linComb c Q = some (((c.zip Q).map fun p => p.1 • p.2).sum) := by
  have key : ∀ (l : List (ℂ × (n → ℂ))) (out : n → ℂ), combLoop out l = out + (l.map fun p => p.1 • p.2).sum := by
    intro l
    induction l with
    | nil => intro out; simp [combLoop]
    | cons p l ih => intro out; rw [combLoop, ih]; simp [add_assoc]
  cases c with
  | nil => exact absurd rfl hc
  | cons x c =>
    cases Q with
    | nil => exact absurd rfl hQ
    | cons q Q => simp [linComb, key]

/-- DEFECT: if the start vector is an eigenvector, the first number `b` is zero and is not checked: every basis with more than one vector
asked for ends in a division by zero. -/
theorem C39_fails_eigenvector {A : Matrix n n ℂ} (v0 : n → ℂ) (m : ℕ) (eps x : ℝ) (hv : norm v0 = 1) (hx : A *ᵥ v0 = (x : ℂ) • v0) (hm : 2 ≤ m) :
    iter A v0 m eps = none ∧ full A v0 m eps = none := by
  have hs : states A v0 m eps = none := by
    unfold states
    split_ifs with h0
    · rfl
    have hq := normalize_one eps v0 hv
    have hr : (start A v0).b = 0 := by
      simp only [start, hx, ip_smul_right, ip_self, hv]
      simp [norm]
    rw [hq, Option.bind_some]
    obtain ⟨k, hk⟩ : ∃ k, m - 1 = k + 1 := ⟨m - 2, by omega⟩
    rw [hk, loop, if_pos hr]
    rfl
  simp [iter, full, hs]

/-- DEFECT: `list(Q_T)` of the generator holds the last vector as often as there are vectors; it is never the basis. -/
theorem C39_fails_list {A : Matrix n n ℂ} {v0 : n → ℂ} {Q : List (n → ℂ)} {a b : List ℝ} (h : IsLanczos A v0 Q a b) (h2 : 2 ≤ Q.length) :
    collected Q ≠ Q := by
  intro he
  have h01 := h.orthonormal 0 (by omega) 1 (by omega)
  have h00 := h.orthonormal 0 (by omega) 0 (by omega)
  have e (i : ℕ) (hi : i < Q.length) : Q.getD i 0 = Q.getLastD 0 := by
    have : (collected Q).getD i 0 = Q.getLastD 0 := by
      unfold collected
      simp [List.getD_eq_getElem?_getD, hi]
    rwa [he] at this
  rw [e 0 (by omega), e 1 (by omega)] at h01
  rw [e 0 (by omega)] at h00
  rw [h00] at h01
  simp at h01

/-! ### Witnesses -/

/-- Two levels coupled, two more apart. -/
def coupled : Matrix (Fin 4) (Fin 4) ℂ := !![0, 1, 0, 0; 1, 0, 0, 0; 0, 0, 5, 0; 0, 0, 0, 5]

/-- The first level. -/
def level0 : Fin 4 → ℂ := ![1, 0, 0, 0]

theorem coupled_hermitian : coupled.IsHermitian := by
  ext i j
  fin_cases i <;> fin_cases j <;> simp [coupled]

theorem level0_norm : norm level0 = 1 := by
  simp [norm, level0, Fin.sum_univ_four]

theorem coupled_states (eps : ℝ) (he : 0 < eps) :
    states coupled level0 3 eps = some ([⟨level0, ![0, 1, 0, 0], 0, 1⟩, ⟨![0, 1, 0, 0], 0, 0, 0⟩], true) := by
  have hs : start coupled level0 = ⟨level0, ![0, 1, 0, 0], 0, 1⟩ := by
    have hr : coupled *ᵥ level0 = ![0, 1, 0, 0] := by
      funext i; fin_cases i <;> simp [coupled, level0, Matrix.mulVec, dotProduct, Fin.sum_univ_four]
    have ha : ip level0 ![0, 1, 0, 0] = 0 := by simp [ip, level0, Fin.sum_univ_four]
    have hb : norm (![0, 1, 0, 0] : Fin 4 → ℂ) = 1 := by simp [norm, Fin.sum_univ_four]
    simp [start, hr, ha, hb]
  have hn : next coupled ⟨level0, ![0, 1, 0, 0], 0, 1⟩ = ⟨![0, 1, 0, 0], 0, 0, 0⟩ := by
    have hq : divide (![0, 1, 0, 0] : Fin 4 → ℂ) 1 = ![0, 1, 0, 0] := by funext i; simp [divide]
    have hr : coupled *ᵥ ![0, 1, 0, 0] = level0 := by
      funext i; fin_cases i <;> simp [coupled, level0, Matrix.mulVec, dotProduct, Fin.sum_univ_four]
    simp [next, hq, hr, ip, norm]
  have hq : Model.Lanczos.normalize eps level0 = some level0 := by
    unfold Model.Lanczos.normalize
    rw [level0_norm, if_neg (by simp; exact he.le)]
  unfold states
  rw [if_neg (by simp), hq, Option.bind_some, hs]
  simp only [Nat.reduceSub, loop, hn]
  rw [if_neg one_ne_zero, if_pos he]
  rfl

/-- DEFECT: the example where `lanczos_iter` finds the two levels `±1` of the invariant subspace, and `lanczos_full` the level `0`, which
is no eigenvalue at all. -/
theorem C39_fails_levels (eps : ℝ) (he : 0 < eps) :
    iter coupled level0 3 eps = some ([0, 0], [1]) ∧ full coupled level0 3 eps = some ([0], [], [level0]) ∧
      ¬∃ v : Fin 4 → ℂ, v ≠ 0 ∧ coupled *ᵥ v = (0 : ℂ) • v := by
  refine ⟨by simp [iter, coupled_states eps he], by simp [full, coupled_states eps he, fullSize], ?_⟩
  rintro ⟨v, hv, h⟩
  apply hv
  have h0 := congrFun h 0
  have h1 := congrFun h 1
  have h2 := congrFun h 2
  have h3 := congrFun h 3
  simp [coupled, Matrix.mulVec, dotProduct, Fin.sum_univ_four] at h0 h1 h2 h3
  funext i
  fin_cases i <;> simp [h0, h1, h2, h3]

/-- DEFECT: a start vector whose length differs from one by less than the `eps` the user gives is not normalised, but the generator
normalises it: the tridiagonal matrix is not `Q† A Q`. -/
theorem C39_fails_tolerance : ∃ v0 : Fin 2 → ℂ,
    iter 1 v0 1 (1 / 10) = some ([(21 / 20) ^ 2], []) ∧
      ∃ q, vectors (1 / 2 ^ 52) 1 v0 [(21 / 20) ^ 2] [] = some [q] ∧ ip q ((1 : Matrix (Fin 2) (Fin 2) ℂ) *ᵥ q) = 1 := by
  have hn : norm (![21 / 20, 0] : Fin 2 → ℂ) = 21 / 20 := by
    have : ∑ i, Complex.normSq ((![21 / 20, 0] : Fin 2 → ℂ) i) = (21 / 20) ^ 2 := by
      simp [Fin.sum_univ_two, Complex.normSq_apply]; norm_num
    rw [norm, this, Real.sqrt_sq (by norm_num)]
  refine ⟨![21 / 20, 0], ?_, divide ![21 / 20, 0] (21 / 20), ?_, ?_⟩
  · have hq : Model.Lanczos.normalize (1 / 10) (![21 / 20, 0] : Fin 2 → ℂ) = some ![21 / 20, 0] := by
      unfold Model.Lanczos.normalize
      rw [hn, if_neg (by norm_num [abs_of_pos])]
    rw [iter, states, if_neg (by simp), hq]
    simp only [loop, start, Matrix.one_mulVec, ip_self, hn, Nat.sub_self, Option.bind_some, Option.map_some]
    rw [Complex.ofReal_re]
    rfl
  · have hq : Model.Lanczos.normalize (1 / 2 ^ 52) (![21 / 20, 0] : Fin 2 → ℂ) = some (divide ![21 / 20, 0] (21 / 20)) := by
      unfold Model.Lanczos.normalize
      rw [hn, if_pos (by norm_num [abs_of_pos]), if_neg (by norm_num)]
    simp only [vectors, hq, Option.bind_some]
    rfl
  · rw [Matrix.one_mulVec]
    have := ip_divide_self (![21 / 20, 0] : Fin 2 → ℂ) (by rw [hn]; norm_num)
    rwa [hn] at this

/-- Non-vacuity: a Hermitian matrix and a start vector of length one for which both functions return a result, with breakdown. -/
example : coupled.IsHermitian ∧ norm level0 = 1 ∧ iter coupled level0 3 (1 / 2 ^ 52) = some ([0, 0], [1]) ∧ ([0, 0] : List ℝ).length < 3 :=
  ⟨coupled_hermitian, level0_norm, (C39_fails_levels _ (by norm_num)).1, by simp⟩

/-- Non-vacuity: without breakdown. -/
example : full coupled level0 1 (1 / 2 ^ 52) = some ([0], [], [level0]) ∧ [level0].length = 1 := by
  have hs : start coupled level0 = ⟨level0, ![0, 1, 0, 0], 0, 1⟩ := by
    have hr : coupled *ᵥ level0 = ![0, 1, 0, 0] := by
      funext i; fin_cases i <;> simp [coupled, level0, Matrix.mulVec, dotProduct, Fin.sum_univ_four]
    have ha : ip level0 ![0, 1, 0, 0] = 0 := by simp [ip, level0, Fin.sum_univ_four]
    have hb : norm (![0, 1, 0, 0] : Fin 4 → ℂ) = 1 := by simp [norm, Fin.sum_univ_four]
    simp [start, hr, ha, hb]
  have hq : Model.Lanczos.normalize (1 / 2 ^ 52) level0 = some level0 := by
    unfold Model.Lanczos.normalize
    rw [level0_norm, if_neg (by norm_num)]
  rw [full, states, if_neg (by simp), hq]
  simp [loop, hs, fullSize]

/-- Non-vacuity: a program that iterates twice and changes the start vector in between. -/
example : ∃ g, vecIter true false coupled level0 3 (1 / 2 ^ 52) = some g ∧
    history (1 / 2 ^ 52) g coupled level0 [.iterate, .changeV 0, .iterate] =
      [vectors (1 / 2 ^ 52) coupled level0 g.a g.b, vectors (1 / 2 ^ 52) coupled level0 g.a g.b] := by
  refine ⟨⟨none, some level0, [0, 0], [1]⟩, by rw [vecIter, (C39_fails_levels _ (by norm_num)).1]; simp, ?_⟩
  simp only [history, Option.getD_none, Option.getD_some]

end Props
