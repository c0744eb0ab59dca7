import Verif.Model.TensorTrace
import Verif.Spec.TwoParts
import Verif.Props.C91
import Mathlib.Algebra.Star.BigOperators

/-!
C92: partial traces of tensor and photon bases.

The matrix returned for the subsystem is the partial trace of the state, for one state, for columns of states, and for density matrices.  In a photon
basis with a conserved total number the particles have coherences only between states with equal numbers, and the photons have none.
-/

namespace Props
open Model.TensorTrace Model.Entropy Finset
open Spec.TwoParts (projector)

/-- The partial trace asked for by `sub_sys_A`. -/
noncomputable def partOf (side : Side) (Nl Nr : ℕ) (rho : ℕ → ℕ → ℂ) : ℕ → ℕ → ℂ :=
  if side = .left then Spec.TwoParts.left Nr rho else Spec.TwoParts.right Nl Nr rho

/-- The partial trace for the other part. -/
noncomputable def restOf (side : Side) (Nl Nr : ℕ) (rho : ℕ → ℕ → ℂ) : ℕ → ℕ → ℂ :=
  if side = .left then Spec.TwoParts.right Nl Nr rho else Spec.TwoParts.left Nr rho

theorem pure_eq (side : Side) (Nl Nr : ℕ) (ret : Which) (psi : ℕ → ℕ → ℂ) : Model.TensorTrace.pure side Nl Nr ret psi =
    select ret (fun e i k => partOf side Nl Nr (projector (psi e)) i k) (fun e i k => restOf side Nl Nr (projector (psi e)) k i) := by
  unfold Model.TensorTrace.pure partOf restOf sizes tensorReshape projector Spec.TwoParts.left Spec.TwoParts.right
  by_cases h : side = .left
  · simp only [if_pos h]
    congr 1
    funext e i k
    exact Finset.sum_congr rfl fun j _ => mul_comm _ _
  · simp only [if_neg h]
    congr 1
    funext e i k
    exact Finset.sum_congr rfl fun j _ => mul_comm _ _

/-- One state: the matrix of the subsystem is its partial trace; the matrix of the rest is transposed. -/
theorem C92_one_partial (side : Side) (Nl Nr : ℕ) (enforce : Bool) (psi : ℕ → ℂ) :
    partialTrace side Nl Nr .A enforce (.one (Nl * Nr) psi) = some (some fun _ => partOf side Nl Nr (projector psi), none) ∧
    partialTrace side Nl Nr .B enforce (.one (Nl * Nr) psi) = some (none, some fun _ i k => restOf side Nl Nr (projector psi) k i) ∧
    partialTrace side Nl Nr .both enforce (.one (Nl * Nr) psi) =
      some (some fun _ => partOf side Nl Nr (projector psi), some fun _ i k => restOf side Nl Nr (projector psi) k i) := by
  simp only [partialTrace, ne_eq, not_true_eq_false, if_false, pure_eq, select, and_self]

/-- Many states, one in each column: the same for every column.
Missing: stacks of density matrices, mixed states of photon bases, sparse arrays (`C92_fails_stack`, `C92_fails_photon_mixed`). -/
theorem C92_columns_partial (side : Side) (Nl Nr c : ℕ) (enforce : Bool) (hc : Nl * Nr ≠ c ∨ enforce = true) (x : ℕ → ℕ → ℂ) :
    partialTrace side Nl Nr .both enforce (.two (Nl * Nr) c x) =
      some (some fun e => partOf side Nl Nr (projector fun s => x s e), some fun e i k => restOf side Nl Nr (projector fun s => x s e) k i) := by
  simp only [partialTrace, ne_eq, not_true_eq_false, if_false]
  rw [if_pos hc, pure_eq]
  rfl

theorem place_lt {a b A B : ℕ} (ha : a < A) (hb : b < B) : a * B + b < A * B := by
  calc a * B + b < a * B + B := by omega
    _ = (a + 1) * B := by ring
    _ ≤ A * B := Nat.mul_le_mul_right _ ha

theorem reshapeMixed_eq (side : Side) {Nl Nr : ℕ} (rho : ℕ → ℕ → ℂ) {i j k m : ℕ}
    (h1 : (if side = .left then k * Nr + m else m * Nr + k) < Nl * Nr) : reshapeMixed side Nl Nr (Nl * Nr) rho i j k m =
      if side = .left then rho (i * Nr + j) (k * Nr + m) else rho (j * Nr + i) (m * Nr + k) := by
  unfold reshapeMixed
  have key : ∀ q r, r < Nl * Nr → (q * (Nl * Nr) + r) / (Nl * Nr) = q ∧ (q * (Nl * Nr) + r) % (Nl * Nr) = r := by
    intro q r hr
    constructor
    · rw [mul_comm q, Nat.mul_add_div (by omega), Nat.div_eq_of_lt hr, add_zero]
    · rw [mul_comm q, Nat.mul_add_mod, Nat.mod_eq_of_lt hr]
  by_cases h : side = .left
  · simp only [if_pos h] at h1 ⊢
    rw [(key _ _ h1).1, (key _ _ h1).2]
  · simp only [if_neg h] at h1 ⊢
    rw [(key _ _ h1).1, (key _ _ h1).2]

/-- A density matrix: the partial trace for the subsystem; for the rest the complex conjugate. -/
theorem C92_mixed_partial (side : Side) (Nl Nr : ℕ) (rho : ℕ → ℕ → ℂ) : ∃ a b,
    partialTrace side Nl Nr .both false (.two (Nl * Nr) (Nl * Nr) rho) = some (some a, some b) ∧
    (∀ i k, i < (sizes side Nl Nr).1 → k < (sizes side Nl Nr).1 → a 0 i k = partOf side Nl Nr rho i k) ∧
    ∀ i k, i < (sizes side Nl Nr).2 → k < (sizes side Nl Nr).2 → b 0 i k = star (restOf side Nl Nr rho i k) := by
  simp only [partialTrace, ne_eq, not_true_eq_false, if_false, false_or, Bool.false_eq_true, mixed]
  rw [if_neg (by rw [not_not]; ring)]
  refine ⟨_, _, rfl, fun i k hi hk => ?_, fun i k hi hk => ?_⟩
  · by_cases h : side = .left
    · subst h
      simp only [sizes, partOf, if_true, Spec.TwoParts.left] at hi hk ⊢
      refine Finset.sum_congr rfl fun j hj => ?_
      rw [reshapeMixed_eq _ _ (by rw [if_pos rfl]; exact place_lt hk (Finset.mem_range.1 hj)), if_pos rfl]
    · simp only [sizes, partOf, if_neg h, Spec.TwoParts.right] at hi hk ⊢
      refine Finset.sum_congr rfl fun j hj => ?_
      rw [reshapeMixed_eq _ _ (by rw [if_neg h]; exact place_lt (Finset.mem_range.1 hj) hk), if_neg h]
  · by_cases h : side = .left
    · subst h
      simp only [sizes, restOf, if_true, Spec.TwoParts.right] at hi hk ⊢
      rw [star_sum]
      refine Finset.sum_congr rfl fun j hj => ?_
      rw [reshapeMixed_eq _ _ (by rw [if_pos rfl]; exact place_lt (Finset.mem_range.1 hj) hk), if_pos rfl]
    · simp only [sizes, restOf, if_neg h, Spec.TwoParts.left] at hi hk ⊢
      rw [star_sum]
      refine Finset.sum_congr rfl fun j hj => ?_
      rw [reshapeMixed_eq _ _ (by rw [if_neg h]; exact place_lt hk (Finset.mem_range.1 hj)), if_neg h]

/-- Both partial traces have the trace of the state. -/
theorem C92_trace (side : Side) (Nl Nr : ℕ) (rho : ℕ → ℕ → ℂ) :
    ∑ i ∈ range (sizes side Nl Nr).1, partOf side Nl Nr rho i i = ∑ s ∈ range (Nl * Nr), rho s s := by
  have e : ∀ f : ℕ → ℂ, ∑ s ∈ range (Nl * Nr), f s = ∑ i ∈ range Nl, ∑ j ∈ range Nr, f (i * Nr + j) := by
    intro f
    induction Nl with
    | zero => simp
    | succ n ih => rw [Nat.succ_mul, Finset.sum_range_add, ih, Finset.sum_range_succ]
  rw [e]
  unfold partOf sizes Spec.TwoParts.left Spec.TwoParts.right
  by_cases h : side = .left
  · simp only [if_pos h]
  · simp only [if_neg h]
    exact Finset.sum_comm

/-! ### Photon bases with a conserved total number -/

/-- The amplitude of `k` with `m` photons. -/
theorem flat_sector {Ns Ntot c : ℕ} (Np : Fin Ns → ℕ) (v : Matrix (Fin Ns) (Fin c) ℂ) (k : Fin Ns) {m : ℕ} (hm : m ≤ Ntot) (j : Fin c) :
    flat (sector (1 : Matrix (Fin Ns) (Fin Ns) ℂ) Ntot Ntot Np * v) (k * (Ntot + 1) + m) j = if m + Np k = Ntot then v k j else 0 := by
  have e1 : ((k : ℕ) * (Ntot + 1) + m) / (Ntot + 1) = k := by
    rw [mul_comm, Nat.mul_add_div (by omega), Nat.div_eq_of_lt (by omega), add_zero]
  have e2 : ((k : ℕ) * (Ntot + 1) + m) % (Ntot + 1) = m := by
    rw [mul_comm, Nat.mul_add_mod, Nat.mod_eq_of_lt (by omega)]
  unfold flat
  rw [dif_pos ⟨by rw [e1]; exact k.2, by rw [e2]; omega, j.2⟩]
  simp only [e1, e2, Matrix.mul_apply, sector, Matrix.of_apply, Fin.eta]
  rw [Finset.sum_eq_single k]
  · simp only [Matrix.one_apply_eq]
    by_cases h : m + Np k = Ntot
    · rw [if_pos h, if_pos h, one_mul]
    · rw [if_neg h, if_neg h, zero_mul]
  · intro k' _ hk'
    rw [Matrix.one_apply_ne (Ne.symm hk'), ite_self, zero_mul]
  · simp

/-- A pure state with the amplitude of every state of the basis at its number of photons. -/
theorem photon_one {Ns : ℕ} (hNs : 0 < Ns) (Ntot : ℕ) (hN : Ntot < 128) (Np : Fin Ns → ℕ) (hNp : ∀ k, Np k ≤ Ntot) (side : Side) (ret : Which)
    (enforce : Bool) (psi : ℕ → ℂ) : ∃ (n : Fin Ns → ℤ) (v : ℕ → ℂ), Model.Embedding.numbers false Ntot Np = some n ∧
      photonTrace n Ntot side ret enforce (.one Ns psi) = partialTrace side Ns (Ntot + 1) ret enforce (.one (Ns * (Ntot + 1)) v) ∧
      ∀ (k : Fin Ns) (m : ℕ), m ≤ Ntot → v (k * (Ntot + 1) + m) = if m + Np k = Ntot then psi k else 0 := by
  obtain ⟨n, h1, h2⟩ := C91_project_from_partial hNs (1 : Matrix (Fin Ns) (Fin Ns) ℂ) Ntot Ntot hN le_rfl Np hNp (Matrix.of fun k (_ : Fin 1) => psi k)
  refine ⟨n, fun r => flat _ r 0, h1, ?_, fun k m hm => flat_sector Np (Matrix.of fun k (_ : Fin 1) => psi k) k hm 0⟩
  unfold photonTrace unfolded
  simp only [ne_eq, not_true_eq_false, if_false, h2, Option.map_some, Option.bind_some]

/-- The density matrix of the particles: coherences only between states with the same number of particles.
Missing: stacks of density matrices, mixed states of photon bases, sparse arrays (`C92_fails_stack`, `C92_fails_photon_mixed`). -/
theorem C92_particles_partial {Ns : ℕ} (hNs : 0 < Ns) (Ntot : ℕ) (hN : Ntot < 128) (Np : Fin Ns → ℕ) (hNp : ∀ k, Np k ≤ Ntot) (enforce : Bool)
    (psi : ℕ → ℂ) : ∃ n a, Model.Embedding.numbers false Ntot Np = some n ∧
      photonTrace n Ntot .left .A enforce (.one Ns psi) = some (some a, none) ∧
      ∀ k k' : Fin Ns, a 0 k k' = if Np k = Np k' then psi k * star (psi k') else 0 := by
  obtain ⟨n, v, h1, h2, h3⟩ := photon_one hNs Ntot hN Np hNp .left .A enforce psi
  refine ⟨n, _, h1, h2.trans (C92_one_partial .left Ns (Ntot + 1) enforce v).1, fun k k' => ?_⟩
  have hk := hNp k
  have hk' := hNp k'
  simp only [partOf, if_true, Spec.TwoParts.left, projector]
  by_cases h : Np k = Np k'
  · rw [if_pos h, Finset.sum_eq_single (Ntot - Np k)]
    · rw [h3 k _ (by omega), h3 k' _ (by omega), if_pos (by omega), if_pos (by omega)]
    · intro m hm hne
      have := Finset.mem_range.1 hm
      rw [h3 k _ (by omega), if_neg (by omega), zero_mul]
    · intro hm
      exact absurd (Finset.mem_range.2 (by omega)) hm
  · rw [if_neg h]
    refine Finset.sum_eq_zero fun m hm => ?_
    have := Finset.mem_range.1 hm
    rw [h3 k _ (by omega), h3 k' _ (by omega)]
    by_cases e : m + Np k = Ntot
    · rw [if_neg (show ¬ m + Np k' = Ntot by omega), star_zero, mul_zero]
    · rw [if_neg e, zero_mul]

/-- The density matrix of the photons is diagonal, with the probabilities of the photon numbers.
Missing: stacks of density matrices, mixed states of photon bases, sparse arrays (`C92_fails_stack`, `C92_fails_photon_mixed`). -/
theorem C92_photons_partial {Ns : ℕ} (hNs : 0 < Ns) (Ntot : ℕ) (hN : Ntot < 128) (Np : Fin Ns → ℕ) (hNp : ∀ k, Np k ≤ Ntot) (enforce : Bool)
    (psi : ℕ → ℂ) : ∃ n a, Model.Embedding.numbers false Ntot Np = some n ∧
      photonTrace n Ntot .right .A enforce (.one Ns psi) = some (some a, none) ∧
      ∀ m m', m ≤ Ntot → m' ≤ Ntot → a 0 m m' = if m = m' then ∑ k : Fin Ns, if m + Np k = Ntot then psi k * star (psi k) else 0 else 0 := by
  obtain ⟨n, v, h1, h2, h3⟩ := photon_one hNs Ntot hN Np hNp .right .A enforce psi
  refine ⟨n, _, h1, h2.trans (C92_one_partial .right Ns (Ntot + 1) enforce v).1, fun m m' hm hm' => ?_⟩
  simp only [partOf, reduceCtorEq, if_false, Spec.TwoParts.right, projector]
  rw [Finset.sum_range fun j => v (j * (Ntot + 1) + m) * star (v (j * (Ntot + 1) + m'))]
  by_cases h : m = m'
  · subst h
    rw [if_pos rfl]
    refine Finset.sum_congr rfl fun k _ => ?_
    rw [h3 k m hm]
    by_cases e : m + Np k = Ntot
    · rw [if_pos e, if_pos e]
    · rw [if_neg e, if_neg e, zero_mul]
  · rw [if_neg h]
    refine Finset.sum_eq_zero fun k _ => ?_
    rw [h3 k m hm, h3 k m' hm']
    by_cases e : m + Np k = Ntot
    · rw [if_neg (show ¬ m' + Np k = Ntot by omega), star_zero, mul_zero]
    · rw [if_neg e, zero_mul]

/-- One spin with one quantum: the state `(|↑,0⟩ + i |↓,1⟩)`. -/
example : ∃ n a, Model.Embedding.numbers false 1 (Ns := 2) ![1, 0] = some n ∧
    photonTrace n 1 .left .A false (.one 2 fun k => if k = 0 then 1 else Complex.I) = some (some a, none) ∧ a 0 0 1 = 0 ∧ a 0 1 1 = 1 := by
  obtain ⟨n, a, h1, h2, h3⟩ := C92_particles_partial (Ns := 2) (by norm_num) 1 (by norm_num) ![1, 0] (by decide) false
    fun k => if k = 0 then 1 else Complex.I
  refine ⟨n, a, h1, h2, ?_, ?_⟩
  · have := h3 0 1
    simpa using this
  · have := h3 1 1
    simpa using this

/-! ### Defects -/

/-- With the default `return_rdm=None` the call always raises. -/
theorem C92_fails_default (side : Side) (Nl Nr : ℕ) (enforce : Bool) (state : State) : partialTrace side Nl Nr .neither enforce state = none := by
  cases state <;> simp only [partialTrace, Model.TensorTrace.pure, mixed, select, ite_self]

/-- The matrix of the rest is not the partial trace: for the state `(|0⟩ + i |1⟩)` of the right part it is the complex conjugate. -/
theorem C92_fails_conjugate : ∃ b, partialTrace .left 1 2 .B false (.one (1 * 2) fun s => if s = 0 then 1 else Complex.I) = some (none, some b) ∧
    b 0 0 1 = Complex.I ∧ Spec.TwoParts.right 1 2 (projector fun s => if s = 0 then 1 else Complex.I) 0 1 = -Complex.I := by
  refine ⟨_, (C92_one_partial .left 1 2 false _).2.1, ?_, ?_⟩
  · simp [restOf, Spec.TwoParts.right, projector]
  · simp [Spec.TwoParts.right, projector]

/-- Stacks of `l` density matrices, in the documented shape `(Ns, Ns, l)`, always raise unless `l` is `Ns` itself. -/
theorem C92_fails_stack (side : Side) (Nl Nr l : ℕ) (hpos : 0 < Nl * Nr) (hl : l ≠ Nl * Nr) (ret : Which) (enforce : Bool) (x : ℕ → ℕ → ℕ → ℂ) :
    partialTrace side Nl Nr ret enforce (.three (Nl * Nr) (Nl * Nr) l x) = none := by
  simp only [partialTrace, ne_eq, not_true_eq_false, if_false, mixed]
  rw [if_pos]
  intro h
  have h1 : Nl * Nr * (Nl * Nr) * l = Nl * Nr * (Nl * Nr) * (Nl * Nr) := by rw [h]; ring
  exact hl (Nat.eq_of_mul_eq_mul_left (by positivity) h1)

/-- With `Ns` density matrices the answer is wrong: for two states of one spin (the right part has one state), both `|0⟩⟨0|`, the second matrix is
zero. -/
theorem C92_fails_stack_square :
    ∃ a, partialTrace .left 2 1 .A false (.three 2 2 2 fun i j _ => if i = 0 ∧ j = 0 then 1 else 0) = some (some a, none) ∧
    a 0 0 0 = 1 ∧ a 0 0 1 = 1 ∧ a 1 0 0 = 0 ∧ a 1 1 1 = 0 := by
  refine ⟨_, by simp only [partialTrace, mixed, select]; norm_num; rfl, ?_⟩
  simp [sizes, reshapeMixed, Finset.filter_singleton]

/-- Density matrices in a photon basis with a conserved total number always raise. -/
theorem C92_fails_photon_mixed {Ns : ℕ} (n : Fin Ns → ℤ) (Ntot : ℕ) (hpos : 0 < Ns * (Ntot + 1)) (h1 : Ns * (Ntot + 1) ≠ 1) (side : Side) (ret : Which)
    (rho : ℕ → ℕ → ℂ) : photonTrace n Ntot side ret false (.two Ns Ns rho) = none := by
  unfold photonTrace unfolded
  simp only [ne_eq, not_true_eq_false, if_false, false_or, Bool.false_eq_true]
  rcases Model.Embedding.getProj n Ntot Ntot (1 : Matrix (Fin Ns) (Fin Ns) ℂ) with _ | P
  · rfl
  · simp only [Option.map_some, Option.bind_some]
    exact C92_fails_stack side Ns (Ntot + 1) 1 hpos (Ne.symm h1) ret false _

end Props
