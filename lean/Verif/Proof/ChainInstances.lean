import Verif.Proof.ChainColumns
/-! The matrix elements of the kinds of blocks. -/
namespace Proof.Chain
open Model Spec Model.Chain Proof.Symmetry Proof.Maps
open Spec.Chain (Fits HasFlip)

/-- The basis and matrix of a block are right: the basis consists of the representatives in the sector, and the
matrix of every sum of terms that is invariant is its restriction to the block. -/
def BlockCorrect {α : Type} (size : ℕ) (ys : List Generator) (es : List ℕ) (l : List (ℕ × α))
    (column : (ℕ → Option (ℕ × ℂ)) → ℕ → Option (Option (ℕ × ℂ))) : Prop :=
  AreRepresentatives ys es (l.map (·.1)) ∧
  ∀ terms : List (ℕ → Option (ℕ × ℂ)), TermsWithin size terms → InvariantUnder (· < size) ys (operatorOf terms) →
    ∃ M, matrixOfColumns (terms.map column) l.length = some M ∧ IsRestriction size ys (l.map (·.1)) (operatorOf terms) M

variable {size : ℕ} {next : ℕ → ℕ} {nosymm : ℕ → Bool} {MAX s0 : ℕ}

theorem conj_int_pow (p : Int) (g : ℕ) : (starRingEnd ℂ) ((p : ℂ) ^ g) = (p : ℂ) ^ g := by simp

theorem keepN_some {check : ℕ → Int} {s : ℕ} {d : Int} (h : keepN check s = some d) : 0 < d ∧ check s = d := by
  unfold keepN at h
  split_ifs at h with h0
  simp only [Option.some.injEq] at h
  exact ⟨h ▸ h0, h⟩

theorem keepN_isSome (check : ℕ → Int) (s : ℕ) : (keepN check s).isSome ↔ 0 < check s := by
  unfold keepN
  split_ifs with h <;> simp_all

theorem two_matrix {y : Generator} {p : Int} (hp : HasParity y p) (ha : Acts (· < size) [y])
    (hinc : (visited next MAX s0).Pairwise (· < ·)) (hs : IsSectorOf size [y] ((visited next MAX s0).filter nosymm))
    (check : ℕ → Int) (hc : ∀ s, s < size → (0 < check s ↔ IsRepresentative [y] s) ∧ (0 < check s → (check s : ℂ) = 2 * projection [y] s s))
    (ref : ℕ → Ref) (href : ∀ s, s < size → IsReference [y] s [(ref s).g] (ref s).r (ref s).sign) :
    BlockCorrect size [y] ((visited next MAX s0).filter nosymm) (blockBasis next nosymm (keepN check) MAX s0)
      (columnOf ref (factorP p) (blockBasis next nosymm (keepN check) MAX s0)) := by
  have key := fun terms h1 h2 => block_matrix (keep := keepN check) ha hinc hs (fun s h => by rw [keepN_isSome]; exact (hc s h).1)
    (fun N => (N : ℝ)) (1 / 2) (by norm_num) (by
      intro s d h hk
      obtain ⟨h0, h1⟩ := keepN_some hk
      have := (hc s h).2 (by omega)
      rw [h1] at this
      push_cast
      linear_combination (-1 / 2) * this) ref (fun b => [b.g]) (factorP p) href (by
      intro r hr d d' _ _
      have hg : (ref r).g < 2 := by
        have := (mem_exponents _ _).1 (href r hr).exponents
        rw [← hp.1]
        exact (List.forall₂_cons.1 this).1
      rw [character_parity hp [] _ hg [], character_nil, mul_one, conj_int_pow]
      unfold factorP
      ring) terms h1 h2
  exact ⟨(key [] (by intro f hf; cases hf) (by intro y hy s t _ _; simp [operatorOf])).1, fun terms h1 h2 => (key terms h1 h2).2⟩

theorem pair_matrix {y z : Generator} {p q : Int} (hp : HasParity y p) (hq : HasParity z q) (ha : Acts (· < size) [y, z])
    (hinc : (visited next MAX s0).Pairwise (· < ·)) (hs : IsSectorOf size [y, z] ((visited next MAX s0).filter nosymm))
    (check : ℕ → Int) (hc : ∀ s, s < size → (0 < check s ↔ IsRepresentative [y, z] s) ∧ (0 < check s → (check s : ℂ) = 4 * projection [y, z] s s))
    (ref : ℕ → Ref) (ey ez : Ref → ℕ) (href : ∀ s, s < size → IsReference [y, z] s [ey (ref s), ez (ref s)] (ref s).r (ref s).sign)
    (factor : Ref → Int → Int → ℂ) (hfac : ∀ b Ni Ns, factor b Ni Ns = b.sign * (Real.sqrt ((Ns : ℝ) / (Ni : ℝ)) : ℝ) * (p : ℂ) ^ ey b * (q : ℂ) ^ ez b) :
    BlockCorrect size [y, z] ((visited next MAX s0).filter nosymm) (blockBasis next nosymm (keepN check) MAX s0)
      (columnOf ref factor (blockBasis next nosymm (keepN check) MAX s0)) := by
  have key := fun terms h1 h2 => block_matrix (keep := keepN check) ha hinc hs (fun s h => by rw [keepN_isSome]; exact (hc s h).1)
    (fun N => (N : ℝ)) (1 / 4) (by norm_num) (by
      intro s d h hk
      obtain ⟨h0, h1⟩ := keepN_some hk
      have := (hc s h).2 (by omega)
      rw [h1] at this
      push_cast
      linear_combination (-1 / 4) * this) ref (fun b => [ey b, ez b]) factor href (by
      intro r hr d d' _ _
      have hin := List.forall₂_cons.1 ((mem_exponents _ _).1 (href r hr).exponents)
      have hg : ey (ref r) < 2 := by rw [← hp.1]; exact hin.1
      have hg' : ez (ref r) < 2 := by rw [← hq.1]; exact (List.forall₂_cons.1 hin.2).1
      rw [character_parity hp _ _ hg, character_parity hq [] _ hg' [], character_nil, mul_one, map_mul, conj_int_pow, conj_int_pow, hfac]
      ring) terms h1 h2
  exact ⟨(key [] (by intro f hf; cases hf) (by intro y hy s t _ _; simp [operatorOf])).1, fun terms h1 h2 => (key terms h1 h2).2⟩

theorem columnT_ok {α : Type} {isReal : Bool} {k L T : ℕ} (hr : isReal = true → 2 * T * k % L = 0) (ref : ℕ → Ref) (factor : Ref → α → α → ℂ)
    (l : List (ℕ × α)) : columnT isReal k L T ref factor l = columnOf ref factor l := by
  funext op i
  unfold columnT
  rw [if_neg]
  rintro ⟨h1, h2⟩
  exact h2 (hr h1)

theorem t_matrix {y : Generator} {T n k : ℕ} (hT : 0 < T) (hn : 0 < n) (hp : y.per = n) (hq : y.q = k) (ha : Acts (· < size) [y])
    (hinc : (visited next MAX s0).Pairwise (· < ·)) (hs : IsSectorOf size [y] ((visited next MAX s0).filter nosymm))
    (check : ℕ → Int) (hc : ∀ s, s < size → (0 < check s ↔ IsRepresentative [y] s) ∧
      (0 < check s → ∃ r : ℕ, check s = r ∧ 0 < r ∧ projection [y] s s * r = n))
    (ref : ℕ → Ref) (href : ∀ s, s < size → IsReference [y] s [(ref s).l % n] (ref s).r (ref s).sign)
    (isReal : Bool) (hreal : isReal = true → 2 * T * k % (T * n) = 0) :
    BlockCorrect size [y] ((visited next MAX s0).filter nosymm) (blockBasis next nosymm (keepN check) MAX s0)
      (columnT isReal k (T * n) T ref (factorT isReal k (T * n) T) (blockBasis next nosymm (keepN check) MAX s0)) := by
  rw [columnT_ok hreal]
  have key := fun terms h1 h2 => block_matrix (keep := keepN check) ha hinc hs (fun s h => by rw [keepN_isSome]; exact (hc s h).1)
    (fun N => 1 / (N : ℝ)) n (by exact_mod_cast hn) (by
      intro s d h hk
      obtain ⟨h0, h1⟩ := keepN_some hk
      obtain ⟨r, e1, e2, e3⟩ := (hc s h).2 (by omega)
      have e4 : d = (r : Int) := by rw [← h1]; exact e1
      have : (r : ℂ) ≠ 0 := by exact_mod_cast (Nat.pos_iff_ne_zero.1 e2)
      rw [e4]
      push_cast
      field_simp
      linear_combination e3) ref (fun b => [b.l % n]) (factorT isReal k (T * n) T) href (by
      rintro r hr d d' ⟨s, hd⟩ ⟨s', hd'⟩
      rw [character_shift hn hp hq [] _ [], character_nil, mul_one]
      have e : (1 / (d' : ℝ)) / (1 / (d : ℝ)) = (d : ℝ) / d' := by
        rw [one_div, one_div, div_inv_eq_mul, div_eq_inv_mul]
      unfold factorT
      rw [e]
      split_ifs with h
      · rw [root_half T k n hT hn (hreal h) (ref r).l ((ref r).l * 2 * T * k) (by ring)]
        generalize (ref r).l * 2 * T * k / (T * n) = e
        rw [map_pow, map_neg, map_one]
        ring
      · rw [root_conj_phase T k n _ hT hn]
        ring) terms h1 h2
  exact ⟨(key [] (by intro f hf; cases hf) (by intro y hy s t _ _; simp [operatorOf])).1, fun terms h1 h2 => (key terms h1 h2).2⟩

theorem tz_matrix {y z : Generator} {T n k : ℕ} {p : Int} (hT : 0 < T) (hn : 0 < n) (hp : y.per = n) (hq : y.q = k) (hz : HasParity z p)
    (ha : Acts (· < size) [y, z])
    (hinc : (visited next MAX s0).Pairwise (· < ·)) (hs : IsSectorOf size [y, z] ((visited next MAX s0).filter nosymm))
    (keep : ℕ → Option (ℕ × ℕ)) (weight : ℕ × ℕ → ℝ) (hc : ∀ s, s < size → ((keep s).isSome ↔ IsRepresentative [y, z] s) ∧
      (∀ Nm, keep s = some Nm → projection [y, z] s s = (weight Nm * n : ℝ)))
    (ref : ℕ → Ref) (href : ∀ s, s < size → IsReference [y, z] s [(ref s).l % n, (ref s).g] (ref s).r (ref s).sign)
    (isReal : Bool) (hreal : isReal = true → 2 * T * k % (T * n) = 0) :
    BlockCorrect size [y, z] ((visited next MAX s0).filter nosymm) (blockBasis next nosymm keep MAX s0)
      (columnT isReal k (T * n) T ref (factorT_Z isReal weight p k (T * n) T) (blockBasis next nosymm keep MAX s0)) := by
  rw [columnT_ok hreal]
  have key := fun terms h1 h2 => block_matrix (keep := keep) ha hinc hs (fun s h => (hc s h).1)
    weight n (by exact_mod_cast hn) (fun s d h hk => (hc s h).2 d hk) ref (fun b => [b.l % n, b.g]) (factorT_Z isReal weight p k (T * n) T) href (by
      rintro r hr d d' _ _
      have hin := List.forall₂_cons.1 ((mem_exponents _ _).1 (href r hr).exponents)
      have hg' : (ref r).g < 2 := by rw [← hz.1]; exact (List.forall₂_cons.1 hin.2).1
      rw [character_shift hn hp hq _ _ _, character_parity hz [] _ hg' [], character_nil, mul_one, map_mul, conj_int_pow]
      unfold factorT_Z
      rw [phaseT_eq T k n _ hT hn]
      split_ifs with h
      · have e2 : (starRingEnd ℂ) (root n k (ref r).l) = (((-1) ^ (2 * (ref r).l * T * k / (T * n)) : ℝ) : ℂ) := by
          rw [root_half T k n hT hn (hreal h) (ref r).l (2 * (ref r).l * T * k) (by ring)]
          simp
        rw [e2]
        generalize ((-1 : ℝ) ^ (2 * (ref r).l * T * k / (T * n))) = e
        have e : ((Real.sqrt (weight d' / weight d) : ℝ) * (p : ℂ) ^ (ref r).g * (e : ℂ) : ℂ)
            = ((Real.sqrt (weight d' / weight d) * (p : ℝ) ^ (ref r).g * e : ℝ) : ℂ) := by push_cast; ring
        simp only [e, Complex.ofReal_re]
        push_cast
        ring
      · ring) terms h1 h2
  exact ⟨(key [] (by intro f hf; cases hf) (by intro y hy s t _ _; simp [operatorOf])).1, fun terms h1 h2 => (key terms h1 h2).2⟩

end Proof.Chain
