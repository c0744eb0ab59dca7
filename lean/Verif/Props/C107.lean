import Verif.Model.EntropyCall
import Verif.Props.C41
import Verif.Props.C92

/-!
C107: `ent_entropy` of tensor and photon bases returns what was asked for.

`Sent_A` is the entropy of the part named by `sub_sys_A`, `Sent_B` that of the rest, and the dictionary has the keys that `return_rdm` and
`return_rdm_EVs` ask for.  The theorems are for `alpha = 1` (`C41_fails_tensor`) and without the `eps` the code adds to the spectrum.
-/

namespace Props
open Matrix Spec.Entropy Model.Entropy Model.TensorTrace Proof.Entropy Model.EntropyCall
open Spec.TwoParts (projector)
open scoped ComplexOrder

/-! ### The keys -/

/-- The dictionary has the keys that are asked for: `Sent_B`, `rdm_B` for "B" and "both", `rdm_A` for "A" and "both", `p_B` with the spectra. -/
def Keys (ret : Which) (evs : Bool) (d : Dict) : Prop :=
  (d.SentB.isSome ↔ ret = .B ∨ ret = .both) ∧ (d.rdmB.isSome ↔ ret = .B ∨ ret = .both) ∧ (d.rdmA.isSome ↔ ret = .A ∨ ret = .both) ∧
    (d.pB.isSome ↔ evs = true ∧ (ret = .B ∨ ret = .both)) ∧ (ret ≠ .B → d.SentA.isSome ∧ (d.pA.isSome ↔ evs = true))

/-- What the spectra have before the dictionary is made. -/
def Ready (ret : Which) (s : Spectra) : Prop :=
  (Which.hasB ret = true → s.pB.isSome ∧ s.rdmB.isSome) ∧ (Which.hasA ret = true → s.rdmA.isSome) ∧ (ret ≠ .B → s.pA.isSome)

theorem finish_keys {alpha : ℝ} {ret : Which} {evs flag : Bool} {s : Spectra} {d : Dict} (h : finish alpha ret evs flag s = .ok d)
    (hs : Ready ret s) : Keys ret evs d := by
  unfold finish at h
  by_cases ha : alpha ≠ 1 ∧ alpha < 0
  · rw [if_pos ha] at h
    cases h
  rw [if_neg ha] at h
  obtain rfl := Except.ok.inj h
  obtain ⟨h1, h2, h3⟩ := hs
  unfold Keys
  cases ret <;> cases evs <;>
    simp_all [Which.hasA, Which.hasB]

theorem dense_ready (T : Tools) (side : Side) (Nl Nr : ℕ) (ret : Which) (psi : ℕ → ℕ → ℂ) : Ready ret (densePure T side Nl Nr ret psi) := by
  cases ret <;> simp [Ready, densePure, Which.hasA, Which.hasB]

theorem sparse_ready {T : Tools} {side : Side} {Nl Nr : ℕ} {ret : Which} {m : ℕ} {psi : ℕ → ℕ → ℂ} {s : Spectra}
    (h : sparsePure T side Nl Nr ret m psi = .ok s) : Ready ret s := by
  unfold sparsePure at h
  rw [pure_eq] at h
  by_cases hm : m = 0
  · rw [if_pos hm] at h
    cases h
  rw [if_neg hm] at h
  simp only [select] at h
  obtain rfl := Except.ok.inj h
  cases ret <;> simp [Ready, Which.hasA, Which.hasB]

theorem mixed_ready {T : Tools} {side : Side} {Nl Nr : ℕ} {ret : Which} {k n m : ℕ} {x : ℕ → ℕ → ℕ → ℂ} {s : Spectra}
    (h : denseMixed T side Nl Nr ret k n m x = .ok s) : Ready ret s := by
  unfold denseMixed mixed at h
  by_cases hk : k * n * m ≠ k * (Nl * Nr * Nl * Nr)
  · simp [hk] at h
  · simp only [if_neg hk] at h
    cases ret
    all_goals
      simp only [select, reduceCtorEq, if_false, if_true] at h
      split_ifs at h
      obtain rfl := Except.ok.inj h
      simp [Ready, Which.hasA, Which.hasB]

theorem bind_ok {ε α β : Type} {x : Except ε α} {f : α → Except ε β} {b : β} (h : x.bind f = .ok b) : ∃ a, x = .ok a ∧ f a = .ok b := by
  cases x with
  | error e => cases h
  | ok a => exact ⟨a, rfl, h⟩

/-- Whatever a call of a tensor basis returns has the keys that are asked for.
Missing: `Sent_A` for mixed states with `return_rdm="B"` (`C107_fails_rest`). -/
theorem C107_keys_partial (T : Tools) (side : Side) (Nl Nr : ℕ) (ret : Which) (enforce evs flag : Bool) (alpha : ℝ) (s : Input) (d : Dict)
    (h : tensorCall T side Nl Nr ret enforce evs flag alpha s = .ok d) : Keys ret evs d := by
  have hs : ∀ n m x, tensorCall.sparseCall T side Nl Nr ret enforce evs flag alpha n m x = .ok d → Keys ret evs d := by
    intro n m x h
    unfold tensorCall.sparseCall at h
    split_ifs at h
    obtain ⟨a, h1, h2⟩ := bind_ok h
    exact finish_keys h2 (sparse_ready h1)
  have hd : ∀ s, tensorCall.denseCall T side Nl Nr ret enforce evs flag alpha s = .ok d → Keys ret evs d := by
    intro s h
    cases s
    all_goals
      simp only [tensorCall.denseCall] at h
      split_ifs at h
    · exact hs _ _ _ h
    · exact finish_keys h (dense_ready ..)
    · exact hs _ _ _ h
    · exact finish_keys h (dense_ready ..)
    · obtain ⟨a, h1, h2⟩ := bind_ok h
      exact finish_keys h2 (mixed_ready h1)
    · obtain ⟨a, h1, h2⟩ := bind_ok h
      exact finish_keys h2 (mixed_ready h1)
  cases s with
  | dense s => exact hd s h
  | sparse n m x => exact hs n m x h
  | more => cases h
  | nested s => exact hd s h

/-- Arrays whose number of rows is not the number of states are refused, and so are negative parameters. -/
theorem C107_refuses (T : Tools) (side : Side) (Nl Nr : ℕ) (ret : Which) (enforce evs flag : Bool) (alpha : ℝ) (n m k : ℕ) (hn : n ≠ Nl * Nr)
    (x : ℕ → ℕ → ℕ → ℂ) :
    tensorCall T side Nl Nr ret enforce evs flag alpha (.dense (.one n fun i => x i 0 0)) = .error .valueError ∧
    tensorCall T side Nl Nr ret enforce evs flag alpha (.dense (.two n m fun i j => x i j 0)) = .error .valueError ∧
    tensorCall T side Nl Nr ret enforce evs flag alpha (.dense (.three n m k x)) = .error .valueError ∧
    tensorCall T side Nl Nr ret enforce evs flag alpha (.sparse n m fun i j => x i j 0) = .error .valueError ∧
    ∀ s d, alpha < 0 → tensorCall T side Nl Nr ret enforce evs flag alpha s ≠ .ok d := by
  refine ⟨if_pos hn, if_pos hn, if_pos hn, if_pos hn, fun s d ha h => ?_⟩
  have hf : ∀ s, finish alpha ret evs flag s ≠ .ok d := by
    intro s h
    unfold finish at h
    rw [if_pos ⟨by intro h1; rw [h1] at ha; exact absurd ha (by norm_num), ha⟩] at h
    cases h
  have hs : ∀ n m x, tensorCall.sparseCall T side Nl Nr ret enforce evs flag alpha n m x ≠ .ok d := by
    intro n m x h
    unfold tensorCall.sparseCall at h
    split_ifs at h
    obtain ⟨a, h1, h2⟩ := bind_ok h
    exact hf _ h2
  have hd : ∀ s, tensorCall.denseCall T side Nl Nr ret enforce evs flag alpha s ≠ .ok d := by
    intro s h
    cases s
    all_goals
      simp only [tensorCall.denseCall] at h
      split_ifs at h
    · exact hs _ _ _ h
    · exact hf _ h
    · exact hs _ _ _ h
    · exact hf _ h
    · obtain ⟨a, h1, h2⟩ := bind_ok h
      exact hf _ h2
    · obtain ⟨a, h1, h2⟩ := bind_ok h
      exact hf _ h2
  cases s with
  | dense s => exact hd s h
  | sparse n m x => exact hs n m x h
  | more => cases h
  | nested s => exact hd s h

/-! ### Pure states -/

/-- `numpy.linalg.svd` does its work for this state. -/
def Decomposes (T : Tools) (side : Side) (Nl Nr : ℕ) (psi : ℕ → ℂ) : Prop :=
  let N := sizes side Nl Nr
  let r := T.svd N.1 N.2 (tensorReshape side Nr psi)
  IsSvd N.1 N.2 (tensorReshape side Nr psi) r.U r.s r.V

theorem decomposed {T : Tools} (he : T.eps = 0) {side : Side} {Nl Nr : ℕ} {psi : ℕ → ℂ} (h : Decomposes T side Nl Nr psi) :
    -sumLog (Model.Entropy.pure T.svd T.eps (sizes side Nl Nr).1 (sizes side Nl Nr).2 (tensorReshape side Nr psi)).1 = sideOf Nl Nr psi 1 side ∧
    -sumLog (Model.Entropy.pure T.svd T.eps (sizes side Nl Nr).1 (sizes side Nl Nr).2 (tensorReshape side Nr psi)).1 = otherOf Nl Nr psi 1 side := by
  have key := C41_tensor_partial Nl Nr psi T.svd side (by cases side <;> exact h)
  unfold tensorPure Model.Entropy.tensor at key
  dsimp only at key
  rw [if_pos rfl, Option.map_some] at key
  have := Option.some.inj key
  rw [he]
  cases side
  all_goals
    exact ⟨Option.some.inj (Prod.ext_iff.mp this).1, Option.some.inj (Prod.ext_iff.mp this).2⟩

/-- The matrices made from a singular value decomposition are the products of the matrix with its adjoint. -/
theorem svd_products {m n : ℕ} {v : ℕ → ℕ → ℂ} {svd : ℕ → ℕ → (ℕ → ℕ → ℂ) → Svd} (eps : ℝ)
    (hs : IsSvd m n v (svd m n v).U (svd m n v).s (svd m n v).V) :
    (∀ i < m, ∀ j < m, (Model.Entropy.pure svd eps m n v).2.1 i j = ∑ l ∈ Finset.range n, v i l * star (v j l)) ∧
    ∀ i < n, ∀ j < n, (Model.Entropy.pure svd eps m n v).2.2 i j = ∑ l ∈ Finset.range m, star (v l i) * v l j := by
  generalize hr : svd m n v = r at hs
  constructor
  all_goals
    intro i hi j hj
    simp only [Model.Entropy.pure, hr]
  · have : ∀ l ∈ Finset.range n, v i l * star (v j l) = ∑ k ∈ Finset.range r.s.length, ∑ k' ∈ Finset.range r.s.length,
        r.U i k * (r.s.getD k 0 : ℝ) * (star (r.U j k') * (r.s.getD k' 0 : ℝ)) * (r.V k l * star (r.V k' l)) := by
      intro l hl
      rw [hs.product i hi l (Finset.mem_range.mp hl), hs.product j hj l (Finset.mem_range.mp hl), star_sum, Finset.sum_mul_sum]
      refine Finset.sum_congr rfl fun k _ => Finset.sum_congr rfl fun k' _ => ?_
      simp only [star_mul', Complex.star_def, Complex.conj_ofReal]
      ring
    rw [Finset.sum_congr rfl this, Finset.sum_comm]
    refine Finset.sum_congr rfl fun k hk => ?_
    rw [Finset.sum_comm, Finset.sum_eq_single k]
    · rw [← Finset.mul_sum, hs.right k (Finset.mem_range.mp hk) k (Finset.mem_range.mp hk), if_pos rfl]
      ring
    · intro k' hk' hne
      rw [← Finset.mul_sum, hs.right k (Finset.mem_range.mp hk) k' (Finset.mem_range.mp hk'), if_neg (Ne.symm hne), mul_zero]
    · intro hn
      exact absurd hk hn
  · have : ∀ l ∈ Finset.range m, star (v l i) * v l j = ∑ k ∈ Finset.range r.s.length, ∑ k' ∈ Finset.range r.s.length,
        star (r.V k i) * (r.s.getD k 0 : ℝ) * (r.V k' j * (r.s.getD k' 0 : ℝ)) * (star (r.U l k) * r.U l k') := by
      intro l hl
      rw [hs.product l (Finset.mem_range.mp hl) i hi, hs.product l (Finset.mem_range.mp hl) j hj, star_sum, Finset.sum_mul_sum]
      refine Finset.sum_congr rfl fun k _ => Finset.sum_congr rfl fun k' _ => ?_
      simp only [star_mul', Complex.star_def, Complex.conj_ofReal]
      ring
    rw [Finset.sum_congr rfl this, Finset.sum_comm]
    refine Finset.sum_congr rfl fun k hk => ?_
    rw [Finset.sum_comm, Finset.sum_eq_single k]
    · rw [← Finset.mul_sum, hs.left k (Finset.mem_range.mp hk) k (Finset.mem_range.mp hk), if_pos rfl]
      ring
    · intro k' hk' hne
      rw [← Finset.mul_sum, hs.left k (Finset.mem_range.mp hk) k' (Finset.mem_range.mp hk'), if_neg (Ne.symm hne), mul_zero]
    · intro hn
      exact absurd hk hn

/-- The answer for the states `psi 0 .. psi (c-1)` with everything asked for: the entropies of both parts, and the density matrices; that of the rest
is transposed, as in C92. -/
structure PureAnswer (side : Side) (Nl Nr c : ℕ) (psi : ℕ → ℕ → ℂ) (d : Dict) : Prop where
  entropies : ∃ SA SB, d.SentA = some SA ∧ d.SentB = some SB ∧
    ∀ e < c, SA e = some (sideOf Nl Nr (psi e) 1 side) ∧ SB e = some (otherOf Nl Nr (psi e) 1 side)
  matrices : ∃ b b' a a', d.rdmA = some (b, a) ∧ d.rdmB = some (b', a') ∧
    ∀ e < c, (∀ i < (sizes side Nl Nr).1, ∀ k < (sizes side Nl Nr).1, a e i k = partOf side Nl Nr (projector (psi e)) i k) ∧
      ∀ i < (sizes side Nl Nr).2, ∀ k < (sizes side Nl Nr).2, a' e i k = restOf side Nl Nr (projector (psi e)) k i

theorem dense_answer {T : Tools} (he : T.eps = 0) {side : Side} {Nl Nr c : ℕ} {psi : ℕ → ℕ → ℂ}
    (h : ∀ e < c, Decomposes T side Nl Nr (psi e)) (evs flag : Bool) :
    ∃ d, finish 1 .both evs flag (densePure T side Nl Nr .both psi) = .ok d ∧ PureAnswer side Nl Nr c psi d := by
  unfold finish
  rw [if_neg (by simp)]
  refine ⟨_, rfl, ⟨_, _, rfl, rfl, fun e hc => ?_⟩, ⟨_, _, _, _, rfl, rfl, fun e hc => ?_⟩⟩
  · have := decomposed he (h e hc)
    simp only [Model.Entropy.tensor, if_true, Option.getD_some]
    exact ⟨congrArg some this.1, congrArg some this.2⟩
  · have := svd_products T.eps (h e hc)
    have hp := pure_eq side Nl Nr .both psi
    simp only [Model.TensorTrace.pure, select, Option.some.injEq, Prod.mk.injEq] at hp
    refine ⟨fun i hi k hk => (this.1 i hi k hk).trans ?_, fun i hi k hk => (this.2 i hi k hk).trans ?_⟩
    · exact congrFun (congrFun (congrFun hp.1 e) i) k
    · exact congrFun (congrFun (congrFun hp.2 e) i) k

/-- One state or columns of states as arrays: the entropies of both parts and their density matrices.
Missing: `alpha` other than one (`C41_fails_tensor`), `sub_sys_A="both"` (`C107_fails_both`), and the transposed matrix of the rest
(`C92_fails_conjugate`). -/
theorem C107_pure_partial (T : Tools) (he : T.eps = 0) (side : Side) (Nl Nr c : ℕ) (enforce evs : Bool) (psi : ℕ → ℕ → ℂ)
    (h : ∀ e < c, Decomposes T side Nl Nr (psi e)) :
    (1 ≤ c → ∃ d, tensorCall T side Nl Nr .both enforce evs false 1 (.dense (.one (Nl * Nr) (psi 0))) = .ok d ∧
      PureAnswer side Nl Nr 1 (fun _ => psi 0) d) ∧
    (Nl * Nr ≠ c ∨ enforce = true → ∃ d, tensorCall T side Nl Nr .both enforce evs false 1 (.dense (.two (Nl * Nr) c fun s e => psi e s)) = .ok d ∧
      PureAnswer side Nl Nr c psi d) := by
  constructor
  · intro hc
    obtain ⟨d, h1, h2⟩ := dense_answer he (side := side) (Nl := Nl) (Nr := Nr) (c := 1) (psi := fun _ => psi 0) (fun e _ => h 0 (by omega)) evs false
    refine ⟨d, ?_, h2⟩
    simp only [tensorCall, tensorCall.denseCall, ne_eq, not_true_eq_false, if_false, Bool.false_eq_true]
    exact h1
  · intro hc
    obtain ⟨d, h1, h2⟩ := dense_answer he h evs false
    refine ⟨d, ?_, h2⟩
    simp only [tensorCall, tensorCall.denseCall, ne_eq, not_true_eq_false, if_false, Bool.false_eq_true]
    rw [if_pos (by simpa using hc)]
    exact h1

/-! ### Sparse states -/

theorem left_first (Nl Nr : ℕ) (psi : ℕ → ℂ) (i k : Fin Nl) : Spec.TwoParts.left Nr (projector psi) i k = first (pairs Nl Nr psi) i k := by
  simp only [Spec.TwoParts.left, projector, first, pairs, of_apply]
  exact Finset.sum_range fun j => psi (i * Nr + j) * star (psi (k * Nr + j))

theorem right_second (Nl Nr : ℕ) (psi : ℕ → ℂ) (i k : Fin Nr) : Spec.TwoParts.right Nl Nr (projector psi) i k = second (pairs Nl Nr psi) i k := by
  simp only [Spec.TwoParts.right, projector, second, pairs, of_apply]
  exact Finset.sum_range fun j => psi (j * Nr + i) * star (psi (j * Nr + k))

theorem swap_first {a b : Type} [Fintype b] (M : Matrix a b ℂ) (i k : a) : first M k i = star (first M i k) := by
  have := (first_hermitian M).apply k i
  exact this.symm

theorem swap_second {a b : Type} [Fintype a] (M : Matrix a b ℂ) (i k : b) : second M k i = star (second M i k) := by
  have := (second_hermitian M).apply k i
  exact this.symm

/-- `eigvalsh` does its work for both density matrices of this state. -/
def Diagonalises (T : Tools) (side : Side) (Nl Nr : ℕ) (psi : ℕ → ℂ) : Prop :=
  let a := partOf side Nl Nr (projector psi)
  let b := fun i k => restOf side Nl Nr (projector psi) k i
  IsSpectrum (sizes side Nl Nr).1 a (T.eigvalsh (sizes side Nl Nr).1 a) ∧ IsSpectrum (sizes side Nl Nr).2 b (T.eigvalsh (sizes side Nl Nr).2 b)

theorem range_fin (N : ℕ) (f : ℕ → ℂ) : ∑ i ∈ Finset.range N, f i = ∑ x : Fin N, f x := Finset.sum_range f

theorem spectrum_entropies {Nl Nr : ℕ} {psi : ℕ → ℂ} {p : List ℝ} (side : Side)
    (h : (∀ f : ℝ → ℝ, f 0 = 0 → ∑ i, f ((first_hermitian (pairs Nl Nr psi)).eigenvalues i) = (p.map f).sum) ∨
      (∀ f : ℝ → ℝ, f 0 = 0 → ∑ i, f ((second_hermitian (pairs Nl Nr psi)).eigenvalues i) = (p.map f).sum)) :
    -sumLog p = sideOf Nl Nr psi 1 side ∧ -sumLog p = otherOf Nl Nr psi 1 side := by
  have h1 : ∀ f : ℝ → ℝ, f 0 = 0 → ∑ i, f ((first_hermitian (pairs Nl Nr psi)).eigenvalues i) = (p.map f).sum := by
    rcases h with h | h
    · exact h
    · intro f hf
      rw [sum_both _ f hf, h f hf]
  have h2 : ∀ f : ℝ → ℝ, f 0 = 0 → ∑ i, f ((second_hermitian (pairs Nl Nr psi)).eigenvalues i) = (p.map f).sum := by
    intro f hf
    rw [← sum_both _ f hf, h1 f hf]
  have e1 := sumLog_eq _ (first_posSemidef _).eigenvalues_nonneg _ h1
  have e2 := sumLog_eq _ (second_posSemidef _).eigenvalues_nonneg _ h2
  cases side <;> simp only [sideOf, otherOf, renyi, if_true, e1]
  all_goals
    rw [← e2, e1]
    first | exact ⟨trivial, rfl⟩ | exact ⟨rfl, trivial⟩

theorem diagonal_entropies {T : Tools} {side : Side} {Nl Nr : ℕ} {psi : ℕ → ℂ} (h : Diagonalises T side Nl Nr psi) (c : Bool) :
    ∀ p, p = (if c then T.eigvalsh (sizes side Nl Nr).1 (partOf side Nl Nr (projector psi)) else
      T.eigvalsh (sizes side Nl Nr).2 fun i k => restOf side Nl Nr (projector psi) k i) → -sumLog p = sideOf Nl Nr psi 1 side ∧ -sumLog p = otherOf Nl Nr psi 1 side := by
  rintro p rfl
  apply spectrum_entropies side
  by_cases hl : side = .left
  · subst hl
    cases c
    · right
      exact eig_sum_conj (fun i : Fin Nr => (i : ℕ)) Nr (range_fin Nr) (fun i => i.2) _ _ h.2 (fun x y => by
        simp only [restOf, if_true]
        rw [right_second, swap_second]) (second_hermitian _)
    · left
      exact eig_sum (fun i : Fin Nl => (i : ℕ)) Nl (range_fin Nl) (fun i => i.2) _ _ h.1 (fun x y => by
        simp only [partOf, if_true]
        rw [left_first]) (first_hermitian _)
  · have hz : sizes side Nl Nr = (Nr, Nl) := if_neg hl
    have h1 := h.1
    have h2 := h.2
    simp only [hz, partOf, restOf, if_neg hl] at h1 h2
    simp only [hz, partOf, restOf, if_neg hl]
    cases c
    · left
      exact eig_sum_conj (fun i : Fin Nl => (i : ℕ)) Nl (range_fin Nl) (fun i => i.2) _ _ h2 (fun x y => by rw [left_first, swap_first])
        (first_hermitian _)
    · right
      exact eig_sum (fun i : Fin Nr => (i : ℕ)) Nr (range_fin Nr) (fun i => i.2) _ _ h1 (fun x y => by rw [right_second]) (second_hermitian _)

/-- Sparse states, and arrays with `sparse=True`: the same answer as for arrays, whichever of the two matrices is diagonalised.
Missing: as for arrays; density matrices are refused. -/
theorem C107_sparse_partial (T : Tools) (he : T.eps = 0) (side : Side) (Nl Nr c : ℕ) (hc : 0 < c) (enforce evs flag : Bool)
    (hp : c = 1 ∨ Nl * Nr ≠ c ∨ enforce = true) (psi : ℕ → ℕ → ℂ) (h : ∀ e < c, Diagonalises T side Nl Nr (psi e)) :
    ∃ d, tensorCall T side Nl Nr .both enforce evs flag 1 (.sparse (Nl * Nr) c fun s e => psi e s) = .ok d ∧ PureAnswer side Nl Nr c psi d ∧
      tensorCall T side Nl Nr .both enforce evs true 1 (.dense (.two (Nl * Nr) c fun s e => psi e s)) =
        tensorCall T side Nl Nr .both enforce evs true 1 (.sparse (Nl * Nr) c fun s e => psi e s) := by
  have hq : tensorCall T side Nl Nr .both enforce evs flag 1 (.sparse (Nl * Nr) c fun s e => psi e s) =
      (sparsePure T side Nl Nr .both c psi).bind (finish 1 .both evs flag) := by
    simp only [tensorCall, tensorCall.sparseCall, ne_eq, not_true_eq_false, if_false]
    rw [if_pos (by simpa using hp)]
  rw [hq]
  unfold sparsePure
  rw [if_neg hc.ne', pure_eq]
  simp only [select, Except.bind, finish]
  rw [if_neg (by simp)]
  have hs : ∀ b (r : Rdms), squeezed flag (b, r) = ((squeezed flag (b, r)).1, r) := fun b r => by
    unfold squeezed
    split_ifs <;> rfl
  refine ⟨_, rfl, ⟨⟨_, _, rfl, rfl, fun e hc => ?_⟩, ⟨_, _, _, _, congrArg some (hs _ _), congrArg some (hs _ _), fun e hc => ?_⟩⟩, ?_⟩
  · have := diagonal_entropies (h e hc) (choice (sizes side Nl Nr).1 (sizes side Nl Nr).2 .both) _ rfl
    simp only [he, add_zero, List.map_id', Model.Entropy.tensor, if_true, Option.getD_some]
    exact ⟨congrArg some this.1, congrArg some this.2⟩
  · exact ⟨fun i _ k _ => rfl, fun i _ k _ => rfl⟩
  · simp only [tensorCall, tensorCall.denseCall, ne_eq, not_true_eq_false, if_false, if_true]

/-- Any of the answers `return_rdm` asks for: a sparse state gives the same entropy for every value.
Missing: as for arrays. -/
theorem C107_choice_partial (T : Tools) (he : T.eps = 0) (side : Side) (Nl Nr : ℕ) (ret : Which) (enforce evs flag : Bool) (psi : ℕ → ℂ)
    (h : Diagonalises T side Nl Nr psi) : ∃ d SA, tensorCall T side Nl Nr ret enforce evs flag 1 (.sparse (Nl * Nr) 1 fun s _ => psi s) = .ok d ∧
      d.SentA = some SA ∧ SA 0 = some (sideOf Nl Nr psi 1 side) := by
  have hq : tensorCall T side Nl Nr ret enforce evs flag 1 (.sparse (Nl * Nr) 1 fun s _ => psi s) =
      (sparsePure T side Nl Nr ret 1 fun _ => psi).bind (finish 1 ret evs flag) := by
    simp only [tensorCall, tensorCall.sparseCall, ne_eq, not_true_eq_false, if_false]
    rw [if_pos (Or.inl trivial)]
  rw [hq]
  unfold sparsePure
  rw [if_neg one_ne_zero, pure_eq]
  simp only [select, Except.bind, finish]
  rw [if_neg (by simp)]
  refine ⟨_, _, rfl, rfl, ?_⟩
  have := diagonal_entropies h (choice (sizes side Nl Nr).1 (sizes side Nl Nr).2 ret) _ rfl
  simp only [he, add_zero, List.map_id', Model.Entropy.tensor, if_true, Option.getD_some]
  exact congrArg some this.1

/-! ### Density matrices -/

/-- The first `N` rows and columns. -/
def block0 (N : ℕ) (R : ℕ → ℕ → ℂ) : Matrix (Fin N) (Fin N) ℂ := Matrix.of fun i j => R i j

theorem left_pos {Nl Nr : ℕ} {rho : ℕ → ℕ → ℂ} (h : (block0 (Nl * Nr) rho).PosSemidef) : (block0 Nl (Spec.TwoParts.left Nr rho)).PosSemidef := by
  have : block0 Nl (Spec.TwoParts.left Nr rho) = ∑ j : Fin Nr, (block0 (Nl * Nr) rho).submatrix
      (fun i : Fin Nl => ⟨i * Nr + j, place_lt i.2 j.2⟩) fun i : Fin Nl => ⟨i * Nr + j, place_lt i.2 j.2⟩ := by
    ext i k
    rw [Matrix.sum_apply]
    exact Finset.sum_range fun j => rho (i * Nr + j) (k * Nr + j)
  rw [this]
  exact posSemidef_sum _ fun b _ => h.submatrix _

theorem right_pos {Nl Nr : ℕ} {rho : ℕ → ℕ → ℂ} (h : (block0 (Nl * Nr) rho).PosSemidef) : (block0 Nr (Spec.TwoParts.right Nl Nr rho)).PosSemidef := by
  have : block0 Nr (Spec.TwoParts.right Nl Nr rho) = ∑ j : Fin Nl, (block0 (Nl * Nr) rho).submatrix
      (fun i : Fin Nr => ⟨j * Nr + i, place_lt j.2 i.2⟩) fun i : Fin Nr => ⟨j * Nr + i, place_lt j.2 i.2⟩ := by
    ext i k
    rw [Matrix.sum_apply]
    exact Finset.sum_range fun j => rho (j * Nr + i) (j * Nr + k)
  rw [this]
  exact posSemidef_sum _ fun b _ => h.submatrix _

theorem part_pos {side : Side} {Nl Nr : ℕ} {rho : ℕ → ℕ → ℂ} (h : (block0 (Nl * Nr) rho).PosSemidef) :
    (block0 (sizes side Nl Nr).1 (partOf side Nl Nr rho)).PosSemidef ∧ (block0 (sizes side Nl Nr).2 (restOf side Nl Nr rho)).PosSemidef := by
  cases side
  · exact ⟨left_pos h, right_pos h⟩
  · exact ⟨right_pos h, left_pos h⟩
  · exact ⟨right_pos h, left_pos h⟩

/-- Stacks of density matrices: the entropies of both parts of each of them.
Missing: `alpha` other than one, `return_rdm="B"` (`C107_fails_rest`), parts with one state (`C107_fails_single`). -/
theorem C107_mixed_partial (T : Tools) (he : T.eps = 0) (side : Side) (Nl Nr k : ℕ) (hl : Nl ≠ 1) (hr : Nr ≠ 1) (enforce evs : Bool)
    (rho : ℕ → ℕ → ℕ → ℂ) (hpos : ∀ e < k, (block0 (Nl * Nr) (rho e)).PosSemidef)
    (hA : ∀ e < k, ∀ R, (∀ i < (sizes side Nl Nr).1, ∀ j < (sizes side Nl Nr).1, R i j = partOf side Nl Nr (rho e) i j) →
      IsSpectrum (sizes side Nl Nr).1 R (T.eigvalsh (sizes side Nl Nr).1 R))
    (hB : ∀ e < k, ∀ R, (∀ i < (sizes side Nl Nr).2, ∀ j < (sizes side Nl Nr).2, R i j = star (restOf side Nl Nr (rho e) i j)) →
      IsSpectrum (sizes side Nl Nr).2 R (T.eigvalsh (sizes side Nl Nr).2 R)) :
    ∃ d SA SB, tensorCall T side Nl Nr .both enforce evs false 1 (.dense (.three (Nl * Nr) (Nl * Nr) k fun i j e => rho e i j)) = .ok d ∧
      d.SentA = some SA ∧ d.SentB = some SB ∧ ∀ e (he : e < k), SA e = some (renyi 1 (part_pos (side := side) (hpos e he)).1.1) ∧
        SB e = some (renyi 1 (part_pos (side := side) (hpos e he)).2.1) := by
  have hmix : ∀ e, ∃ a b, partialTrace side Nl Nr .both false (.two (Nl * Nr) (Nl * Nr) (rho e)) = some (some a, some b) ∧
    (∀ i k, i < (sizes side Nl Nr).1 → k < (sizes side Nl Nr).1 → a 0 i k = partOf side Nl Nr (rho e) i k) ∧
    ∀ i k, i < (sizes side Nl Nr).2 → k < (sizes side Nl Nr).2 → b 0 i k = star (restOf side Nl Nr (rho e) i k) :=
    fun e => C92_mixed_partial side Nl Nr (rho e)
  have h1 : (sizes side Nl Nr).1 ≠ 1 := by cases side <;> assumption
  have h2 : (sizes side Nl Nr).2 ≠ 1 := by cases side <;> assumption
  simp only [tensorCall, tensorCall.denseCall, ne_eq, not_true_eq_false, if_false, Bool.false_eq_true, denseMixed, mixed, reduceCtorEq]
  rw [if_neg (by rw [not_not]; ring)]
  simp only [select, h1, h2, and_false, or_self, if_false, Except.bind, finish]
  rw [if_neg (by simp)]
  refine ⟨_, _, _, rfl, rfl, rfl, fun e hk => ?_⟩
  obtain ⟨a, b, hab, ha, hb⟩ := hmix e
  simp only [partialTrace, ne_eq, not_true_eq_false, if_false, false_or, Bool.false_eq_true, mixed] at hab
  rw [if_neg (by rw [not_not]; ring)] at hab
  simp only [select, Option.some.injEq, Prod.mk.injEq] at hab
  obtain ⟨rfl, rfl⟩ := hab
  have sA := hA e hk _ fun i hi j hj => ha i j hi hj
  have sB := hB e hk _ fun i hi j hj => hb i j hi hj
  have pA := part_pos (side := side) (hpos e hk)
  have eA := sumLog_eq pA.1.1 pA.1.eigenvalues_nonneg _ (eig_sum (fun i : Fin (sizes side Nl Nr).1 => (i : ℕ)) _ (range_fin _) (fun i => i.2) _ _ sA
    (fun x y => ha x y x.2 y.2) pA.1.1)
  have eB := sumLog_eq pA.2.1 pA.2.eigenvalues_nonneg _ (eig_sum_conj (fun i : Fin (sizes side Nl Nr).2 => (i : ℕ)) _ (range_fin _) (fun i => i.2) _ _ sB
    (fun x y => hb x y x.2 y.2) pA.2.1)
  simp only [he, add_zero, List.map_id', Model.Entropy.tensor, if_true, Option.getD_some, renyi]
  exact ⟨congrArg some (congrArg Neg.neg eA), congrArg some (congrArg Neg.neg eB)⟩

/-- One density matrix is a stack of one. -/
theorem C107_one_matrix (T : Tools) (side : Side) (Nl Nr : ℕ) (ret : Which) (evs : Bool) (alpha : ℝ) (rho : ℕ → ℕ → ℂ) :
    tensorCall T side Nl Nr ret false evs false alpha (.dense (.two (Nl * Nr) (Nl * Nr) rho)) =
      tensorCall T side Nl Nr ret false evs false alpha (.dense (.three (Nl * Nr) (Nl * Nr) 1 fun i j _ => rho i j)) := by
  simp only [tensorCall, tensorCall.denseCall, ne_eq, not_true_eq_false, if_false, Bool.false_eq_true, or_self]

/-! ### Photon bases with a conserved total number -/

/-- The amplitude of the particles in `k` with `m` photons: the basis state `k` has `Ntot - Np k` photons. -/
def photonPairs {Ns : ℕ} (Ntot : ℕ) (Np : Fin Ns → ℕ) (psi : ℕ → ℂ) : Matrix (Fin Ns) (Fin (Ntot + 1)) ℂ :=
  Matrix.of fun k m => if (m : ℕ) + Np k = Ntot then psi k else 0

/-- The entropy of the particles ("left") or the photons. -/
noncomputable def photonSide {Ns : ℕ} (Ntot : ℕ) (Np : Fin Ns → ℕ) (psi : ℕ → ℂ) : Side → ℝ
  | .left => renyi 1 (first_hermitian (photonPairs Ntot Np psi))
  | _ => renyi 1 (second_hermitian (photonPairs Ntot Np psi))

/-- The state `v` of the product has the amplitudes of `psi`. -/
def Unfolds {Ns : ℕ} (Ntot : ℕ) (Np : Fin Ns → ℕ) (psi v : ℕ → ℂ) : Prop :=
  ∀ (k : Fin Ns) (m : ℕ), m ≤ Ntot → v (k * (Ntot + 1) + m) = if m + Np k = Ntot then psi k else 0

theorem sideOf_unfolds {Ns : ℕ} {Ntot : ℕ} {Np : Fin Ns → ℕ} {psi v : ℕ → ℂ} (h : Unfolds Ntot Np psi v) (side : Side) :
    sideOf Ns (Ntot + 1) v 1 side = photonSide Ntot Np psi side := by
  have : pairs Ns (Ntot + 1) v = photonPairs Ntot Np psi := by
    ext k m
    exact h k m (by omega)
  cases side <;> simp only [sideOf, photonSide, this]

theorem columns_unfold {Ns : ℕ} (hNs : 0 < Ns) (Ntot : ℕ) (hN : Ntot < 128) (Np : Fin Ns → ℕ) (hNp : ∀ k, Np k ≤ Ntot) (c : ℕ) (x : ℕ → ℕ → ℂ) :
    ∃ n v, Model.Embedding.numbers false Ntot Np = some n ∧ columns n Ntot c x = some v ∧
      ∀ j < c, Unfolds Ntot Np (fun k => x k j) fun r => v r j := by
  obtain ⟨n, h1, h2⟩ := C91_project_from_partial hNs (1 : Matrix (Fin Ns) (Fin Ns) ℂ) Ntot Ntot hN le_rfl Np hNp (Matrix.of fun k (j : Fin c) => x k j)
  refine ⟨n, _, h1, by rw [columns, h2, Option.map_some], fun j hj k m hm => ?_⟩
  exact flat_sector Np (Matrix.of fun k (j : Fin c) => x k j) k hm ⟨j, hj⟩

/-- One state, or columns of states, of a photon basis with a conserved total number: `Sent_A` is the entropy of the particles or the photons.
Missing: bases of the general classes and more than 127 quanta (C91), `alpha` other than one, the spectra (`C107_fails_spectra`). -/
theorem C107_photon_partial {Ns : ℕ} (hNs : 0 < Ns) (Ntot : ℕ) (hN : Ntot < 128) (Np : Fin Ns → ℕ) (hNp : ∀ k, Np k ≤ Ntot) (T : Tools) (he : T.eps = 0)
    (side : Side) (enforce evs : Bool) (c : ℕ) (hc : Ns ≠ c ∨ enforce = true) (hc' : Ns * (Ntot + 1) ≠ c) (x : ℕ → ℕ → ℂ)
    (h : ∀ e < c, ∀ v, Unfolds Ntot Np (fun k => x k e) v → Decomposes T side Ns (Ntot + 1) v) :
    ∃ n d SA, Model.Embedding.numbers false Ntot Np = some n ∧
      conservedCall T n Ntot side .both enforce evs false 1 (.dense (.two Ns c x)) = .ok d ∧ d.SentA = some SA ∧
      ∀ e < c, SA e = some (photonSide Ntot Np (fun k => x k e) side) := by
  obtain ⟨n, v, h1, h2, h3⟩ := columns_unfold hNs Ntot hN Np hNp c x
  obtain ⟨d, h4, ⟨⟨SA, SB, h5, h6, h7⟩, h8⟩⟩ := (C107_pure_partial T he side Ns (Ntot + 1) c false false (fun e r => v r e) fun e hc =>
    h e hc _ (h3 e hc)).2 (Or.inl hc')
  refine ⟨n, d, SA, h1, ?_, h5, fun e hc => ?_⟩
  · unfold conservedCall Model.EntropyCall.unfold
    simp only [unfold.dense, ne_eq, not_true_eq_false, if_false, Bool.false_eq_true]
    rw [if_pos (by simpa using hc), h2]
    exact h4
  · rw [(h7 e hc).1, sideOf_unfolds (h3 e hc)]

/-- The same for an array with one axis.
Missing: as for columns. -/
theorem C107_photon_one_partial {Ns : ℕ} (hNs : 0 < Ns) (Ntot : ℕ) (hN : Ntot < 128) (Np : Fin Ns → ℕ) (hNp : ∀ k, Np k ≤ Ntot) (T : Tools)
    (he : T.eps = 0) (side : Side) (enforce evs : Bool) (psi : ℕ → ℂ)
    (h : ∀ v, Unfolds Ntot Np psi v → Decomposes T side Ns (Ntot + 1) v) :
    ∃ n d SA, Model.Embedding.numbers false Ntot Np = some n ∧
      conservedCall T n Ntot side .both enforce evs false 1 (.dense (.one Ns psi)) = .ok d ∧ d.SentA = some SA ∧
      SA 0 = some (photonSide Ntot Np psi side) := by
  obtain ⟨n, v, h1, h2, h3⟩ := columns_unfold hNs Ntot hN Np hNp 1 fun k _ => psi k
  obtain ⟨d, h4, ⟨⟨SA, SB, h5, h6, h7⟩, h8⟩⟩ := (C107_pure_partial T he side Ns (Ntot + 1) 1 false false (fun e r => v r e) fun e hc =>
    h _ (by have := h3 e hc; exact this)).1 le_rfl
  refine ⟨n, d, SA, h1, ?_, h5, ?_⟩
  · unfold conservedCall Model.EntropyCall.unfold
    simp only [unfold.dense, ne_eq, not_true_eq_false, if_false, Bool.false_eq_true]
    rw [h2]
    exact h4
  · rw [(h7 0 one_pos).1, sideOf_unfolds (h3 0 one_pos)]

/-- The density matrix `rho` of the product has the entries of `x`: the particles in `k`, `k'` with the rest of the quanta as photons. -/
def UnfoldsBoth {Ns : ℕ} (Ntot : ℕ) (Np : Fin Ns → ℕ) (x rho : ℕ → ℕ → ℂ) : Prop :=
  ∀ (k k' : Fin Ns) (m m' : ℕ), m ≤ Ntot → m' ≤ Ntot →
    rho (k * (Ntot + 1) + m) (k' * (Ntot + 1) + m') = if m + Np k = Ntot ∧ m' + Np k' = Ntot then x k k' else 0

theorem both_unfold {Ns : ℕ} (Ntot : ℕ) (Np : Fin Ns → ℕ) (x : ℕ → ℕ → ℂ) :
    UnfoldsBoth Ntot Np x fun r s => ∑ k ∈ Finset.range Ns, ∑ k' ∈ Finset.range Ns,
      flat (sector (1 : Matrix (Fin Ns) (Fin Ns) ℂ) Ntot Ntot Np) r k * x k k' * star (flat (sector (1 : Matrix (Fin Ns) (Fin Ns) ℂ) Ntot Ntot Np) s k') := by
  intro k k' m m' hm hm'
  have hf : ∀ (a j : Fin Ns) (m : ℕ), m ≤ Ntot → flat (sector (1 : Matrix (Fin Ns) (Fin Ns) ℂ) Ntot Ntot Np) (a * (Ntot + 1) + m) j =
      if m + Np a = Ntot then (1 : Matrix (Fin Ns) (Fin Ns) ℂ) a j else 0 := by
    intro a j m hm
    have := flat_sector Np (1 : Matrix (Fin Ns) (Fin Ns) ℂ) a hm j
    rwa [Matrix.mul_one] at this
  simp only [Finset.sum_range (n := Ns)]
  rw [Finset.sum_eq_single k, Finset.sum_eq_single k']
  · rw [hf k k m hm, hf k' k' m' hm', Matrix.one_apply_eq, Matrix.one_apply_eq]
    by_cases h1 : m + Np k = Ntot <;> by_cases h2 : m' + Np k' = Ntot <;> simp [h1, h2]
  · intro j _ hj
    rw [hf k' j m' hm', Matrix.one_apply_ne (Ne.symm hj)]
    simp
  · simp
  · intro j _ hj
    refine Finset.sum_eq_zero fun j' _ => ?_
    rw [hf k j m hm, Matrix.one_apply_ne (Ne.symm hj)]
    simp
  · simp

theorem both_pos {Ns : ℕ} {Ntot : ℕ} {Np : Fin Ns → ℕ} {x rho : ℕ → ℕ → ℂ} (h : UnfoldsBoth Ntot Np x rho) (hx : (block0 Ns x).PosSemidef) :
    (block0 (Ns * (Ntot + 1)) rho).PosSemidef := by
  have hd : ∀ r : Fin (Ns * (Ntot + 1)), (r : ℕ) / (Ntot + 1) < Ns := fun r => Nat.div_lt_of_lt_mul (lt_of_lt_of_eq r.2 (mul_comm _ _))
  let B : Matrix (Fin (Ns * (Ntot + 1))) (Fin Ns) ℂ :=
    Matrix.of fun r k => if (r : ℕ) / (Ntot + 1) = k ∧ (r : ℕ) % (Ntot + 1) + Np k = Ntot then 1 else 0
  have : block0 (Ns * (Ntot + 1)) rho = B * block0 Ns x * Bᴴ := by
    ext r s
    have e := h ⟨_, hd r⟩ ⟨_, hd s⟩ ((r : ℕ) % (Ntot + 1)) ((s : ℕ) % (Ntot + 1)) (Nat.le_of_lt_succ (Nat.mod_lt _ (Nat.succ_pos _)))
      (Nat.le_of_lt_succ (Nat.mod_lt _ (Nat.succ_pos _)))
    simp only [Nat.div_add_mod'] at e
    simp only [block0, Matrix.of_apply, Matrix.mul_apply, Matrix.conjTranspose_apply]
    rw [e, Finset.sum_eq_single ⟨_, hd s⟩, Finset.sum_eq_single ⟨_, hd r⟩]
    · simp only [B, Matrix.of_apply, true_and]
      by_cases h1 : (r : ℕ) % (Ntot + 1) + Np ⟨_, hd r⟩ = Ntot <;> by_cases h2 : (s : ℕ) % (Ntot + 1) + Np ⟨_, hd s⟩ = Ntot <;> simp [h1, h2]
    · intro j _ hj
      have : ¬(r : ℕ) / (Ntot + 1) = j := fun h => hj (Fin.ext h.symm)
      simp [B, this]
    · simp
    · intro j _ hj
      have : ¬(s : ℕ) / (Ntot + 1) = j := fun h => hj (Fin.ext h.symm)
      simp [B, this]
    · simp
  rw [this]
  exact hx.mul_mul_conjTranspose_same B

/-- Density matrices of a photon basis with a conserved total number, in a stack or one alone: `Sent_A` and `Sent_B` are the entropies of the two parts of
the matrix in the product.
Missing: as for `C107_mixed_partial`, and more than 127 quanta. -/
theorem C107_photon_mixed_partial {Ns : ℕ} (Ntot : ℕ) (hN : Ntot < 128) (hl : 1 < Ns) (hr : Ntot ≠ 0) (Np : Fin Ns → ℕ) (hNp : ∀ k, Np k ≤ Ntot)
    (T : Tools) (he : T.eps = 0) (side : Side) (enforce evs : Bool) (c : ℕ) (x : ℕ → ℕ → ℕ → ℂ) (hpos : ∀ e < c, (block0 Ns (x e)).PosSemidef)
    (hT : ∀ e < c, ∀ rho, UnfoldsBoth Ntot Np (x e) rho →
      (∀ R, (∀ i < (sizes side Ns (Ntot + 1)).1, ∀ j < (sizes side Ns (Ntot + 1)).1, R i j = partOf side Ns (Ntot + 1) rho i j) →
        IsSpectrum (sizes side Ns (Ntot + 1)).1 R (T.eigvalsh (sizes side Ns (Ntot + 1)).1 R)) ∧
      ∀ R, (∀ i < (sizes side Ns (Ntot + 1)).2, ∀ j < (sizes side Ns (Ntot + 1)).2, R i j = star (restOf side Ns (Ntot + 1) rho i j)) →
        IsSpectrum (sizes side Ns (Ntot + 1)).2 R (T.eigvalsh (sizes side Ns (Ntot + 1)).2 R)) :
    ∃ n, ∃ rho : ℕ → ℕ → ℕ → ℂ, Model.Embedding.numbers false Ntot Np = some n ∧ ∃ hu : ∀ e, UnfoldsBoth Ntot Np (x e) (rho e),
      ∃ d SA SB, conservedCall T n Ntot side .both enforce evs false 1 (.dense (.three Ns Ns c fun i j e => x e i j)) = .ok d ∧
        d.SentA = some SA ∧ d.SentB = some SB ∧
        (∀ e (hc : e < c), SA e = some (renyi 1 (part_pos (side := side) (both_pos (hu e) (hpos e hc))).1.1) ∧
          SB e = some (renyi 1 (part_pos (side := side) (both_pos (hu e) (hpos e hc))).2.1)) := by
  obtain ⟨n, h1, h2⟩ := C91_get_proj_partial (by omega) (1 : Matrix (Fin Ns) (Fin Ns) ℂ) Ntot Ntot hN le_rfl Np hNp
  have hu := fun e => both_unfold Ntot Np (x e)
  obtain ⟨d, SA, SB, h3, h4, h5, h6⟩ := C107_mixed_partial T he side Ns (Ntot + 1) c (by omega) (by omega) false false _
    (fun e hc => both_pos (hu e) (hpos e hc)) (fun e hc => (hT e hc _ (hu e)).1) fun e hc => (hT e hc _ (hu e)).2
  refine ⟨n, _, h1, hu, d, SA, SB, ?_, h4, h5, h6⟩
  · unfold conservedCall Model.EntropyCall.unfold
    simp only [unfold.dense, ne_eq, not_true_eq_false, if_false, Bool.false_eq_true, or_self, h2]
    exact h3

/-- One density matrix of a photon basis is a stack of one. -/
theorem C107_photon_one_matrix {Ns : ℕ} (n : Fin Ns → ℤ) (Ntot : ℕ) (T : Tools) (side : Side) (ret : Which) (evs : Bool) (alpha : ℝ) (y : ℕ → ℕ → ℂ) :
    conservedCall T n Ntot side ret false evs false alpha (.dense (.two Ns Ns y)) =
      conservedCall T n Ntot side ret false evs false alpha (.dense (.three Ns Ns 1 fun i j _ => y i j)) := by
  unfold conservedCall Model.EntropyCall.unfold
  simp only [unfold.dense, ne_eq, not_true_eq_false, if_false, Bool.false_eq_true, or_self, sandwich]
  cases h : Model.Embedding.getProj n Ntot Ntot (1 : Matrix (Fin Ns) (Fin Ns) ℂ) with
  | none => rfl
  | some P =>
    simp only [Option.map_some, Except.bind]
    exact C107_one_matrix T side Ns (Ntot + 1) ret false alpha _

/-! ### Cases -/

/-- `|0 0⟩` of two spins, and numpy as it works for this state. -/
noncomputable def tools00 : Tools := ⟨svd00, fun n _ => if n = 2 then [1, 0] else [], 0⟩

theorem tools00_decomposes (v : ℕ → ℂ) (hv : ∀ i < 2, ∀ j < 2, v (i * 2 + j) = state00 (i * 2 + j)) : Decomposes tools00 .left 2 2 v := by
  have key := svd00_spec (fun i j => state00 (i * 2 + j)) fun _ _ => rfl
  refine ⟨key.length, key.nonneg, key.left, key.right, fun i hi j hj => ?_⟩
  rw [tensorReshape, if_pos rfl, hv i hi j hj]
  exact key.product i hi j hj

example : ∃ d, tensorCall tools00 .left 2 2 .both false true false 1 (.dense (.one (2 * 2) state00)) = .ok d ∧
    PureAnswer .left 2 2 1 (fun _ => state00) d :=
  (C107_pure_partial tools00 rfl .left 2 2 1 false true (fun _ => state00) fun _ _ => tools00_decomposes _ fun _ _ _ _ => rfl).1 le_rfl

theorem tools00_diagonalises : Diagonalises tools00 .left 2 2 state00 := by
  have hW : ∀ k < 2, ∀ l < 2, ∑ i ∈ Finset.range 2, star (if i = k then (1 : ℂ) else 0) * (if i = l then 1 else 0) = if k = l then 1 else 0 := by
    intro k hk l hl
    obtain rfl | rfl : k = 0 ∨ k = 1 := by omega
    all_goals obtain rfl | rfl : l = 0 ∨ l = 1 := by omega
    all_goals simp
  constructor
  all_goals
    refine ⟨rfl, fun i k => if i = k then 1 else 0, hW, fun i hi j hj => ?_⟩
    have hi : i < 2 := hi
    have hj : j < 2 := hj
    obtain rfl | rfl : i = 0 ∨ i = 1 := by omega
    all_goals obtain rfl | rfl : j = 0 ∨ j = 1 := by omega
    all_goals
      simp [tools00, sizes, partOf, restOf, Spec.TwoParts.left, Spec.TwoParts.right, projector, state00, Finset.sum_range_succ]

example : ∃ d, tensorCall tools00 .left 2 2 .both false false true 1 (.sparse (2 * 2) 1 fun s _ => state00 s) = .ok d ∧
    PureAnswer .left 2 2 1 (fun _ => state00) d := by
  obtain ⟨d, h1, h2, -⟩ := C107_sparse_partial tools00 rfl .left 2 2 1 one_pos false false true (Or.inl rfl) (fun _ => state00) fun _ _ =>
    tools00_diagonalises
  exact ⟨d, h1, h2⟩

/-- Two density matrices `|0 0⟩⟨0 0|`. -/
example : ∃ d SA SB, tensorCall tools00 .left 2 2 .both false true false 1 (.dense (.three (2 * 2) (2 * 2) 2 fun i j _ => projector state00 i j)) = .ok d ∧
    d.SentA = some SA ∧ d.SentB = some SB := by
  have hW : ∀ k < 2, ∀ l < 2, ∑ i ∈ Finset.range 2, star (if i = k then (1 : ℂ) else 0) * (if i = l then 1 else 0) = if k = l then 1 else 0 := by
    intro k hk l hl
    obtain rfl | rfl : k = 0 ∨ k = 1 := by omega
    all_goals obtain rfl | rfl : l = 0 ∨ l = 1 := by omega
    all_goals simp
  have hpos : (block0 (2 * 2) (projector state00)).PosSemidef := by
    have : block0 (2 * 2) (projector state00) = Matrix.vecMulVec (fun i : Fin (2 * 2) => state00 i) (star fun i : Fin (2 * 2) => state00 i) := by
      ext i j
      rfl
    rw [this]
    exact posSemidef_vecMulVec_self_star _
  obtain ⟨d, SA, SB, h1, h2, h3, -⟩ := C107_mixed_partial tools00 rfl .left 2 2 2 (by norm_num) (by norm_num) false true (fun _ => projector state00)
    (fun _ _ => hpos) (fun e _ R hR => ⟨rfl, fun i k => if i = k then 1 else 0, hW, fun i hi j hj => by
      rw [hR i hi j hj]
      have hi : i < 2 := hi
      have hj : j < 2 := hj
      obtain rfl | rfl : i = 0 ∨ i = 1 := by omega
      all_goals obtain rfl | rfl : j = 0 ∨ j = 1 := by omega
      all_goals simp [tools00, sizes, partOf, Spec.TwoParts.left, projector, state00]⟩)
    (fun e _ R hR => ⟨rfl, fun i k => if i = k then 1 else 0, hW, fun i hi j hj => by
      rw [hR i hi j hj]
      have hi : i < 2 := hi
      have hj : j < 2 := hj
      obtain rfl | rfl : i = 0 ∨ i = 1 := by omega
      all_goals obtain rfl | rfl : j = 0 ∨ j = 1 := by omega
      all_goals simp [tools00, sizes, restOf, Spec.TwoParts.right, projector, state00]⟩)
  exact ⟨d, SA, SB, h1, h2, h3⟩

/-- One spin and one quantum in the state `|↑, 0⟩`. -/
example : ∃ n d SA, Model.Embedding.numbers false 1 (Ns := 2) ![1, 0] = some n ∧
    conservedCall tools00 n 1 .left .both false false false 1 (.dense (.one 2 state00)) = .ok d ∧ d.SentA = some SA ∧
      SA 0 = some (photonSide 1 ![1, 0] state00 .left) :=
  C107_photon_one_partial (by norm_num) 1 (by norm_num) ![1, 0] (by decide) tools00 rfl .left false false state00 fun v hv => by
    refine tools00_decomposes v fun i hi j hj => ?_
    have := hv ⟨i, hi⟩ j (by omega)
    simp only [Nat.reduceAdd] at this
    rw [this]
    obtain rfl | rfl : i = 0 ∨ i = 1 := by omega
    all_goals obtain rfl | rfl : j = 0 ∨ j = 1 := by omega
    all_goals simp [state00]

/-- One density matrix `|↑, 0⟩⟨↑, 0|` of a spin with one quantum. -/
example : ∃ n d SA SB, Model.Embedding.numbers false 1 (Ns := 2) ![1, 0] = some n ∧
    conservedCall tools00 n 1 .left .both false false false 1 (.dense (.two 2 2 (projector state00))) = .ok d ∧ d.SentA = some SA ∧ d.SentB = some SB := by
  have hW : ∀ k < 2, ∀ l < 2, ∑ i ∈ Finset.range 2, star (if i = k then (1 : ℂ) else 0) * (if i = l then 1 else 0) = if k = l then 1 else 0 := by
    intro k hk l hl
    obtain rfl | rfl : k = 0 ∨ k = 1 := by omega
    all_goals obtain rfl | rfl : l = 0 ∨ l = 1 := by omega
    all_goals simp
  have hpos : (block0 2 (projector state00)).PosSemidef := by
    have : block0 2 (projector state00) = Matrix.vecMulVec (fun i : Fin 2 => state00 i) (star fun i : Fin 2 => state00 i) := by
      ext i j
      rfl
    rw [this]
    exact posSemidef_vecMulVec_self_star _
  have hval : ∀ rho, UnfoldsBoth 1 ![1, 0] (projector state00) rho → ∀ i < 4, ∀ j < 4, rho i j = projector state00 i j := by
    intro rho hu i hi j hj
    have := hu ⟨i / 2, by omega⟩ ⟨j / 2, by omega⟩ (i % 2) (j % 2) (by omega) (by omega)
    simp only [Nat.reduceAdd, Nat.div_add_mod'] at this
    rw [this]
    obtain rfl | rfl | rfl | rfl : i = 0 ∨ i = 1 ∨ i = 2 ∨ i = 3 := by omega
    all_goals obtain rfl | rfl | rfl | rfl : j = 0 ∨ j = 1 ∨ j = 2 ∨ j = 3 := by omega
    all_goals simp [projector, state00]
  obtain ⟨n, rho, h0, hu, d, SA, SB, h1, h2, h3, -⟩ := C107_photon_mixed_partial 1 (by norm_num) (by norm_num) (by norm_num) ![1, 0] (by decide) tools00 rfl
    .left false false 1 (fun _ => projector state00) (fun _ _ => hpos) fun e _ rho hu =>
      ⟨fun R hR => ⟨rfl, fun i k => if i = k then 1 else 0, hW, fun i hi j hj => by
        rw [hR i hi j hj]
        have hi : i < 2 := hi
        have hj : j < 2 := hj
        have hv := hval rho hu
        obtain rfl | rfl : i = 0 ∨ i = 1 := by omega
        all_goals obtain rfl | rfl : j = 0 ∨ j = 1 := by omega
        all_goals
          simp [tools00, sizes, partOf, Spec.TwoParts.left, Finset.sum_range_succ, hv]
          simp [projector, state00]⟩,
      fun R hR => ⟨rfl, fun i k => if i = k then 1 else 0, hW, fun i hi j hj => by
        rw [hR i hi j hj]
        have hi : i < 2 := hi
        have hj : j < 2 := hj
        have hv := hval rho hu
        obtain rfl | rfl : i = 0 ∨ i = 1 := by omega
        all_goals obtain rfl | rfl : j = 0 ∨ j = 1 := by omega
        all_goals
          simp [tools00, sizes, restOf, Spec.TwoParts.right, Finset.sum_range_succ, hv]
          simp [projector, state00]⟩⟩
  exact ⟨n, d, SA, SB, h0, by rw [C107_photon_one_matrix]; exact h1, h2, h3⟩

/-! ### Defects -/

/-- `sub_sys_A="both"`, which is documented to ask for both density matrices, means the right part: nothing changes against `"right"`. -/
theorem C107_fails_both (T : Tools) (Nl Nr : ℕ) (ret : Which) (enforce evs flag : Bool) (alpha : ℝ) (s : Input) :
    tensorCall T .both Nl Nr ret enforce evs flag alpha s = tensorCall T .right Nl Nr ret enforce evs flag alpha s ∧
    ∀ d, tensorCall T .both Nl Nr .neither enforce evs flag alpha s = .ok d → d.rdmA = none ∧ d.rdmB = none ∧ d.SentB = none := by
  constructor
  · have h1 : sizes .both Nl Nr = sizes .right Nl Nr := rfl
    have h2 : tensorReshape .both Nr = tensorReshape .right Nr := by
      funext psi i j
      simp [tensorReshape]
    have h3 : reshapeMixed .both Nl Nr = reshapeMixed .right Nl Nr := by
      funext l rho i j k m
      simp [reshapeMixed]
    have h4 : densePure T .both Nl Nr ret = densePure T .right Nl Nr ret := by
      funext psi
      simp only [densePure, h1, h2]
    have h5 : sparsePure T .both Nl Nr ret = sparsePure T .right Nl Nr ret := by
      funext m psi
      simp only [sparsePure, Model.TensorTrace.pure, h1, h2]
    have h6 : denseMixed T .both Nl Nr ret = denseMixed T .right Nl Nr ret := by
      funext k n m x
      simp only [denseMixed, mixed, h1, h3]
    have h7 : ∀ s, tensorCall.denseCall T .both Nl Nr ret enforce evs flag alpha s = tensorCall.denseCall T .right Nl Nr ret enforce evs flag alpha s := by
      intro s
      cases s <;> simp only [tensorCall.denseCall, tensorCall.sparseCall, h4, h5, h6]
    cases s <;> simp only [tensorCall, h7, tensorCall.sparseCall, h5]
  · intro d hd
    obtain ⟨k1, k2, k3, -⟩ := C107_keys_partial _ _ _ _ _ _ _ _ _ _ _ hd
    simp only [reduceCtorEq, or_self, iff_false, Bool.not_eq_true, Option.isSome_eq_false_iff, Option.isNone_iff_eq_none] at k1 k2 k3
    exact ⟨k3, k2, k1⟩

/-- Density matrices with `return_rdm="B"`: the answer never has `Sent_A`, which is documented as the default key. -/
theorem C107_fails_rest (T : Tools) (side : Side) (Nl Nr : ℕ) (enforce evs : Bool) (alpha : ℝ) (k : ℕ) (x : ℕ → ℕ → ℕ → ℂ) (d : Dict)
    (h : tensorCall T side Nl Nr .B enforce evs false alpha (.dense (.three (Nl * Nr) (Nl * Nr) k x)) = .ok d) : d.SentA = none ∧ d.pA = none := by
  simp only [tensorCall, tensorCall.denseCall, ne_eq, not_true_eq_false, if_false, Bool.false_eq_true, denseMixed, mixed, reduceCtorEq] at h
  rw [if_neg (by rw [not_not]; ring)] at h
  simp only [select] at h
  obtain ⟨a, h1, h2⟩ := bind_ok h
  split_ifs at h1 with h3
  obtain rfl := Except.ok.inj h1
  unfold finish at h2
  by_cases ha : alpha ≠ 1 ∧ alpha < 0
  · rw [if_pos ha] at h2
    cases h2
  rw [if_neg ha] at h2
  obtain rfl := Except.ok.inj h2
  simp

/-- Density matrices raise when the part that is asked for has one state only, although its entropy is zero. -/
theorem C107_fails_single (T : Tools) (Nr : ℕ) (evs : Bool) (alpha : ℝ) (rho : ℕ → ℕ → ℂ) :
    tensorCall T .left 1 Nr .neither false evs false alpha (.dense (.two (1 * Nr) (1 * Nr) rho)) = .error .linAlgError := by
  simp only [tensorCall, tensorCall.denseCall, ne_eq, not_true_eq_false, if_false, Bool.false_eq_true, or_self, denseMixed, mixed, if_true]
  rw [if_neg (by rw [not_not]; ring)]
  simp [select, sizes, Except.bind]

/-- The density matrix of one sparse state without `sparse=True` comes packed into an array without axes. -/
theorem C107_fails_packed (T : Tools) (side : Side) (Nl Nr : ℕ) (enforce evs : Bool) (psi : ℕ → ℂ) : ∃ d r,
    tensorCall T side Nl Nr .A enforce evs false 1 (.sparse (Nl * Nr) 1 fun s _ => psi s) = .ok d ∧ d.rdmA = some (.packed, r) := by
  simp only [tensorCall, tensorCall.sparseCall, ne_eq, not_true_eq_false, if_false, true_or, if_true, sparsePure, one_ne_zero, pure_eq, select,
    Except.bind, finish]
  rw [if_neg (by simp)]
  refine ⟨_, fun _ => partOf side Nl Nr (projector psi), rfl, ?_⟩
  simp [Which.hasA, squeezed]

/-- Photon bases never return spectra, even if they are asked for. -/
theorem C107_fails_spectra (T : Tools) (side : Side) (ret : Which) (enforce flag : Bool) (alpha : ℝ) (s : Input) (d : Dict) :
    (∀ Nl Nr, photonCall T side Nl Nr ret enforce true flag alpha s = .ok d → d.pA = none ∧ d.pB = none) ∧
    ∀ {Ns : ℕ} (n : Fin Ns → ℤ) (Ntot : ℕ), conservedCall T n Ntot side ret enforce true flag alpha s = .ok d → d.pA = none ∧ d.pB = none := by
  have hf : ∀ s, finish alpha ret false flag s = .ok d → d.pA = none ∧ d.pB = none := by
    intro s h
    unfold finish at h
    by_cases ha : alpha ≠ 1 ∧ alpha < 0
    · rw [if_pos ha] at h
      cases h
    rw [if_neg ha] at h
    obtain rfl := Except.ok.inj h
    simp
  have key : ∀ Nl Nr s, tensorCall T side Nl Nr ret false false flag alpha s = .ok d → d.pA = none ∧ d.pB = none := by
    intro Nl Nr s h
    have hs : ∀ n m x, tensorCall.sparseCall T side Nl Nr ret false false flag alpha n m x = .ok d → d.pA = none ∧ d.pB = none := by
      intro n m x h
      unfold tensorCall.sparseCall at h
      split_ifs at h
      obtain ⟨a, h1, h2⟩ := bind_ok h
      exact hf _ h2
    have hd : ∀ s, tensorCall.denseCall T side Nl Nr ret false false flag alpha s = .ok d → d.pA = none ∧ d.pB = none := by
      intro s h
      cases s
      all_goals
        simp only [tensorCall.denseCall] at h
        split_ifs at h
      · exact hs _ _ _ h
      · exact hf _ h
      · exact hs _ _ _ h
      · exact hf _ h
      · obtain ⟨a, h1, h2⟩ := bind_ok h
        exact hf _ h2
      · obtain ⟨a, h1, h2⟩ := bind_ok h
        exact hf _ h2
    cases s with
    | dense s => exact hd s h
    | sparse n m x => exact hs n m x h
    | more => cases h
    | nested s => exact hd s h
  refine ⟨fun Nl Nr h => key Nl Nr s h, fun n Ntot h => ?_⟩
  obtain ⟨a, h1, h2⟩ := bind_ok h
  exact key _ _ a h2

/-- numpy as it works for twice the unit matrix. -/
noncomputable def tools22 : Tools := ⟨svd00, fun n _ => if n = 2 then [2, 2] else [], 0⟩

/-- Photon bases without conserved number ignore `enforce_pure=True`: four product states, which have no entanglement, are taken for one density matrix,
and the one number returned is `-4 log 2`. -/
theorem C107_fails_enforce :
    let x : ℕ → ℕ → ℂ := fun s e => if s = e then 1 else 0
    (∃ d SA, photonCall tools22 .left 2 2 .neither true false false 1 (.dense (.two (2 * 2) (2 * 2) x)) = .ok d ∧ d.SentA = some SA ∧
      SA 0 = some (-(4 * Real.log 2))) ∧
    IsSpectrum 2 (partOf .left 2 2 x) (tools22.eigvalsh 2 (partOf .left 2 2 x)) ∧ sideOf 2 2 (fun s => x s 0) 1 .left = 0 := by
  intro x
  refine ⟨?_, ⟨rfl, fun i k => if i = k then 1 else 0, ?_, ?_⟩, ?_⟩
  · simp only [photonCall, tensorCall, tensorCall.denseCall, ne_eq, not_true_eq_false, if_false, Bool.false_eq_true, or_self, denseMixed, mixed, if_true]
    simp only [select, sizes, if_true, Option.isSome_some, Option.isSome_none, OfNat.ofNat_ne_one, and_false, or_self, if_false, Except.bind, finish]
    rw [if_neg (by simp)]
    refine ⟨_, _, rfl, rfl, ?_⟩
    simp only [Model.Entropy.tensor, tools22, if_true, Option.getD_some, sumLog]
    norm_num
    ring
  · intro k hk l hl
    have hk : k < 2 := hk
    have hl : l < 2 := hl
    obtain rfl | rfl : k = 0 ∨ k = 1 := by omega
    all_goals obtain rfl | rfl : l = 0 ∨ l = 1 := by omega
    all_goals simp
  · intro i hi j hj
    obtain rfl | rfl : i = 0 ∨ i = 1 := by omega
    all_goals obtain rfl | rfl : j = 0 ∨ j = 1 := by omega
    all_goals simp [x, tools22, partOf, Spec.TwoParts.left]
  · have : pairs 2 2 (fun s => x s 0) = Matrix.of fun i j => (if i = 0 then 1 else 0 : ℂ) * (if j = 0 then 1 else 0 : ℂ) := by
      ext i j
      fin_cases i <;> fin_cases j <;> simp [pairs, x]
    rw [sideOf]
    simp only [this]
    exact renyi_product _ _ (by simp) (by simp) 1

/-- Density matrices of a photon basis with a conserved number and `sparse=True` are taken for columns of pure states, where a tensor basis refuses them. -/
theorem C107_fails_columns {Ns : ℕ} (hNs : 0 < Ns) (Ntot : ℕ) (hN : Ntot < 128) (h0 : 0 < Ntot) (Np : Fin Ns → ℕ) (hNp : ∀ k, Np k ≤ Ntot) (T : Tools)
    (side : Side) (ret : Which) (rho : ℕ → ℕ → ℂ) : ∃ n d, Model.Embedding.numbers false Ntot Np = some n ∧
      conservedCall T n Ntot side ret false false true 1 (.dense (.two Ns Ns rho)) = .ok d ∧
      conservedCall T n Ntot side ret true false true 1 (.dense (.two Ns Ns rho)) = .ok d := by
  obtain ⟨n, v, h1, h2, h3⟩ := columns_unfold hNs Ntot hN Np hNp Ns rho
  have key : ∀ enforce, conservedCall T n Ntot side ret enforce false true 1 (.dense (.two Ns Ns rho)) =
      (sparsePure T side Ns (Ntot + 1) ret Ns fun e s => v s e).bind (finish 1 ret false true) := by
    intro enforce
    unfold conservedCall Model.EntropyCall.unfold
    simp only [unfold.dense, unfold.asColumns, ne_eq, not_true_eq_false, if_false, if_true]
    rw [h2]
    simp only [Except.bind, tensorCall, tensorCall.sparseCall, ne_eq, not_true_eq_false, if_false]
    rw [if_pos (Or.inr (Or.inl (by nlinarith)))]
  refine ⟨n, ?_⟩
  rw [key, key]
  unfold sparsePure
  rw [if_neg hNs.ne', pure_eq]
  simp only [select, Except.bind, finish]
  rw [if_neg (by simp)]
  exact ⟨_, h1, rfl, rfl⟩

end Props
