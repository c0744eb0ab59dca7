import Verif.Model.Hamiltonian
import Verif.Spec.TimeOperators
import Verif.Proof.Functions
import Mathlib.Algebra.BigOperators.Group.List.Basic
import Mathlib.Analysis.Normed.Ring.Basic
import Mathlib.Tactic.Linarith
import Mathlib.Tactic.Abel
import Mathlib.LinearAlgebra.Matrix.Module

namespace Proof.Ham
open Model.Ham Model.Drive Spec.TimeOp
open Proof.Drive (bind_some map_some)

variable {F A T R m n k : Type} [NormedCommRing R] [StarRing R]

/-! ### Closeness -/

theorem close_refl (a : Matrix m n R) : Close 0 a a := fun i j => by simp

theorem close_of_eq {a b : Matrix m n R} (h : a = b) : Close 0 a b := h ▸ close_refl a

theorem _root_.Spec.TimeOp.Close.mono {e e' : ℝ} {a b : Matrix m n R} (h : Close e a b) (he : e ≤ e') : Close e' a b :=
  fun i j => (h i j).trans he

theorem _root_.Spec.TimeOp.Close.trans {e e' : ℝ} {a b c : Matrix m n R} (h : Close e a b) (h' : Close e' b c) : Close (e + e') a c :=
  fun i j => by
    rw [show a i j - c i j = (a i j - b i j) + (b i j - c i j) by abel]
    exact (norm_add_le _ _).trans (add_le_add (h i j) (h' i j))

theorem _root_.Spec.TimeOp.Close.add {e e' : ℝ} {a b c d : Matrix m n R} (h : Close e a b) (h' : Close e' c d) :
    Close (e + e') (a + c) (b + d) := fun i j => by
  rw [Matrix.add_apply, Matrix.add_apply, show a i j + c i j - (b i j + d i j) = (a i j - b i j) + (c i j - d i j) by abel]
  exact (norm_add_le _ _).trans (add_le_add (h i j) (h' i j))

theorem eq_of_close {a b : Matrix m n R} (h : Close 0 a b) : a = b := by
  ext i j
  have := h i j
  exact sub_eq_zero.1 (norm_le_zero_iff.1 this)

/-! ### Sums of terms -/

/-- The sum of the dynamic terms at time `t`. -/
def dsum (app : F → List A → T → R) (t : T) (d : List (Fn F A × Mat m n R)) : Matrix m n R :=
  (d.map fun e => call app e.1 t • e.2.val).sum

/-- The sum of the absolute values of the drive functions. -/
noncomputable def wsum (app : F → List A → T → R) (t : T) (d : List (Fn F A × Mat m n R)) : ℝ :=
  (d.map fun e => ‖call app e.1 t‖).sum

variable {app : F → List A → T → R} {t : T}

@[simp] theorem dsum_nil : dsum app t ([] : List (Fn F A × Mat m n R)) = 0 := rfl

@[simp] theorem dsum_cons (e : Fn F A × Mat m n R) (d) :
    dsum app t (e :: d) = call app e.1 t • e.2.val + dsum app t d := by simp [dsum]

@[simp] theorem dsum_append (d d' : List (Fn F A × Mat m n R)) :
    dsum app t (d ++ d') = dsum app t d + dsum app t d' := by simp [dsum]

@[simp] theorem wsum_nil : wsum app t ([] : List (Fn F A × Mat m n R)) = 0 := rfl

@[simp] theorem wsum_cons (e : Fn F A × Mat m n R) (d) :
    wsum app t (e :: d) = ‖call app e.1 t‖ + wsum app t d := by simp [wsum]

@[simp] theorem wsum_append (d d' : List (Fn F A × Mat m n R)) :
    wsum app t (d ++ d') = wsum app t d + wsum app t d' := by simp [wsum]

theorem wsum_nonneg (d : List (Fn F A × Mat m n R)) : 0 ≤ wsum app t d := by
  induction d with
  | nil => simp
  | cons e d ih => rw [wsum_cons]; exact add_nonneg (norm_nonneg _) ih

theorem toMatrix_eq (h : Ham F A m n R) : toMatrix app h t = h.static.val + dsum app t h.dynamic := by
  unfold toMatrix
  have : ∀ (d : List (Fn F A × Mat m n R)) (M : Matrix m n R),
      d.foldl (fun M e => M + call app e.1 t • e.2.val) M = M + dsum app t d := by
    intro d
    induction d with
    | nil => simp
    | cons e d ih => intro M; rw [List.foldl_cons, ih, dsum_cons, add_assoc]
  exact this _ _

/-! ### Invariant of the keys -/

/-- A key with callables in `S`, at most `b` factors, positive exponents. -/
def Key (S : F × List A → Prop) (b : Nat) (f : Fn F A) : Prop :=
  (∀ q ∈ parts f, S q) ∧ degree f ≤ b ∧ Proof.Drive.PowPos f

/-- All keys of a dictionary. -/
def Keys (S : F × List A → Prop) (b : Nat) (d : List (Fn F A × Mat m n R)) : Prop := ∀ e ∈ d, Key S b e.1

variable {S : F × List A → Prop} {b : Nat} {env : Env F A R} {tol : ℝ}

omit [StarRing R] in
theorem Keys.mono {b' : Nat} {d : List (Fn F A × Mat m n R)} (h : Keys S b d) (hb : b ≤ b') : Keys S b' d :=
  fun e he => ⟨(h e he).1, (h e he).2.1.trans hb, (h e he).2.2⟩

theorem key_call (hc : NoCollision env.hash S b) {f g : Fn F A} (hf : Key S b f) (hg : Key S b g)
    (h : eq env.hash f g = some true) : call app f t = call app g t :=
  (Proof.Drive.same_of_perm (hc f g hf.1 hg.1 hf.2.1 hg.2.1 h)).1 t

/-- The threshold below which `_check_almost_zero` calls a matrix zero. -/
def Threshold (env : Env F A R) (tol : ℝ) : Prop :=
  ∀ {m n : Type} (M : Matrix m n R), env.tiny M = true ↔ ∀ i j, ‖M i j‖ ≤ tol

omit [StarRing R] in
theorem Threshold.zero_close (h : Threshold env tol) {M : Matrix m n R} (hM : env.tiny M = true) (c : R) :
    Close (tol * ‖c‖) 0 (c • M) := fun i j => by
  rw [Matrix.zero_apply, zero_sub, norm_neg, Matrix.smul_apply, smul_eq_mul]
  exact (norm_mul_le _ _).trans (by
    rw [mul_comm]; exact mul_le_mul_of_nonneg_right ((h M).1 hM i j) (norm_nonneg _))

theorem clean_close (h : Threshold env tol) (h0 : 0 ≤ tol) (a : Mat m n R) :
    Close tol (clean env.tiny a).val a.val := by
  unfold clean
  split
  · rename_i hM
    intro i j
    change ‖(0 : R) - a.val i j‖ ≤ tol
    rw [zero_sub, norm_neg]
    exact (h a.val).1 hM i j
  · exact (close_refl _).mono h0

/-! ### Steps on dictionaries -/

theorem update_sum (hc : NoCollision env.hash S b) {f : Fn F A} {M : Matrix m n R} {g : Mat m n R → Mat m n R}
    (hg : ∀ N, (g N).val = N.val + M) (hf : Key S b f) :
    ∀ {d : List (Fn F A × Mat m n R)}, Keys S b d → d.any (fun e => decide (eq env.hash e.1 f = some true)) = true →
      Keys S b (update env.hash f g d) ∧ dsum app t (update env.hash f g d) = dsum app t d + call app f t • M
  | [], _, h => by simp at h
  | e :: d, hk, h => by
    rw [update]
    split
    · rename_i he
      have hke := hk e (by simp)
      refine ⟨?_, ?_⟩
      · intro e' he'
        rcases List.mem_cons.1 he' with rfl | he'
        · exact hke
        · exact hk e' (by simp [he'])
      · rw [dsum_cons, dsum_cons, hg, smul_add, key_call (app := app) (t := t) hc hke hf he]
        abel
    · rename_i he
      have := update_sum hc hg hf (d := d) (fun e' h' => hk e' (by simp [h'])) (by simpa [he] using h)
      refine ⟨?_, ?_⟩
      · intro e' he'
        rcases List.mem_cons.1 he' with rfl | he'
        · exact hk _ (by simp)
        · exact this.1 e' he'
      · rw [dsum_cons, dsum_cons, this.2]; abel

theorem updatePop_sum (hc : NoCollision env.hash S b) (ht : Threshold env tol) (h0 : 0 ≤ tol) {f : Fn F A}
    {M : Matrix m n R} {g : Mat m n R → Mat m n R} (hg : ∀ N, (g N).val = N.val + M) (hf : Key S b f) :
    ∀ {d : List (Fn F A × Mat m n R)}, Keys S b d → d.any (fun e => decide (eq env.hash e.1 f = some true)) = true →
      Keys S b (updatePop env.hash env.tiny f g d) ∧
        Close (tol * ‖call app f t‖) (dsum app t (updatePop env.hash env.tiny f g d))
          (dsum app t d + call app f t • M)
  | [], _, h => by simp at h
  | e :: d, hk, h => by
    rw [updatePop]
    have hke := hk e (by simp)
    split
    · rename_i he
      have hcall := key_call (app := app) (t := t) hc hke hf he
      split
      · rename_i htiny
        refine ⟨fun e' h' => hk e' (by simp [h']), ?_⟩
        have h1 := ht.zero_close htiny (call app f t)
        have h2 := h1.add (close_refl (dsum app t d))
        rw [zero_add, add_zero] at h2
        rw [dsum_cons, hcall]
        rw [hg, smul_add] at h2
        convert h2 using 1
        abel
      · refine ⟨?_, ?_⟩
        · intro e' he'
          rcases List.mem_cons.1 he' with rfl | he'
          · exact hke
          · exact hk e' (by simp [he'])
        · refine (close_of_eq ?_).mono (mul_nonneg h0 (norm_nonneg _))
          rw [dsum_cons, dsum_cons, hg, smul_add, hcall]
          abel
    · rename_i he
      have := updatePop_sum hc ht h0 hg hf (d := d) (fun e' h' => hk e' (by simp [h']))
        (by simpa [he] using h)
      refine ⟨?_, ?_⟩
      · intro e' he'
        rcases List.mem_cons.1 he' with rfl | he'
        · exact hke
        · exact this.1 e' he'
      · rw [dsum_cons, dsum_cons]
        have h2 := (close_refl (call app e.1 t • e.2.val)).add this.2
        rw [zero_add] at h2
        rwa [add_assoc]

/-- One step of a loop over terms. -/
def StepOk (app : F → List A → T → R) (t : T) (S : F × List A → Prop) (b : Nat) (tol : ℝ)
    (step : List (Fn F A × Mat m n R) → Fn F A × Mat m n R → Option (List (Fn F A × Mat m n R)))
    (sgn : Matrix m n R → Matrix m n R) : Prop :=
  ∀ d e d', Keys S b d → Key S b e.1 → step d e = some d' →
    Keys S b d' ∧ Close (tol * ‖call app e.1 t‖) (dsum app t d') (dsum app t d + call app e.1 t • sgn e.2.val)

theorem foldlM_sum {step : List (Fn F A × Mat m n R) → Fn F A × Mat m n R → Option (List (Fn F A × Mat m n R))}
    {sgn : Matrix m n R → Matrix m n R} (hs : StepOk app t S b tol step sgn) :
    ∀ {l d d' : List (Fn F A × Mat m n R)}, Keys S b d → Keys S b l → l.foldlM step d = some d' →
      Keys S b d' ∧ Close (tol * wsum app t l) (dsum app t d')
        (dsum app t d + (l.map fun e => call app e.1 t • sgn e.2.val).sum)
  | [], d, d', hd, _, h => by
    obtain rfl : d = d' := by simpa using h
    exact ⟨hd, by simpa using close_refl _⟩
  | e :: l, d, d', hd, hl, h => by
    rw [List.foldlM_cons] at h
    obtain ⟨d1, h1, h2⟩ := bind_some h
    obtain ⟨k1, c1⟩ := hs d e d1 hd (hl e (by simp)) h1
    obtain ⟨k2, c2⟩ := foldlM_sum hs k1 (fun e' h' => hl e' (by simp [h'])) h2
    refine ⟨k2, ?_⟩
    have := c2.trans (c1.add (close_refl ((l.map fun e => call app e.1 t • sgn e.2.val).sum)))
    rw [add_zero] at this
    rw [wsum_cons, List.map_cons, List.sum_cons, ← add_assoc, mul_add, add_comm (tol * _)]
    exact this

theorem mem_some {H : PyHash F A} {f : Fn F A} {d : List (Fn F A × Mat m n R)} {c : Bool} (h : mem H f d = some c) :
    d.any (fun e => decide (eq H e.1 f = some true)) = c := by
  obtain ⟨_, _, rfl⟩ := map_some h
  rfl

theorem keys_snoc {d : List (Fn F A × Mat m n R)} {e : Fn F A × Mat m n R} (hd : Keys S b d) (he : Key S b e.1) :
    Keys S b (d ++ [e]) := by
  intro e' h'
  rcases List.mem_append.1 h' with h' | h'
  · exact hd e' h'
  · rw [List.mem_singleton.1 h']; exact he

theorem addTerm_ok (hc : NoCollision env.hash S b) (ht : Threshold env tol) (h0 : 0 ≤ tol) :
    StepOk app t S b tol (addTerm (m := m) (n := n) env) id := by
  intro d e d' hd he h
  obtain ⟨c, hm, rfl⟩ := map_some h
  have hm := mem_some hm
  cases c with
  | true => exact updatePop_sum hc ht h0 (fun N => rfl) he hd hm
  | false =>
    refine ⟨keys_snoc hd he, (close_of_eq ?_).mono (mul_nonneg h0 (norm_nonneg _))⟩
    simp

theorem subTerm_ok (hc : NoCollision env.hash S b) (ht : Threshold env tol) (h0 : 0 ≤ tol) :
    StepOk app t S b tol (subTerm (m := m) (n := n) env) (fun M => -M) := by
  intro d e d' hd he h
  obtain ⟨c, hm, rfl⟩ := map_some h
  have hm := mem_some hm
  cases c with
  | true => exact updatePop_sum hc ht h0 (fun N => sub_eq_add_neg _ _) he hd hm
  | false =>
    refine ⟨keys_snoc hd he, (close_of_eq ?_).mono (mul_nonneg h0 (norm_nonneg _))⟩
    simp [Mat.neg]

theorem isubTerm_ok (h0 : 0 ≤ tol) : StepOk app t S b tol (isubTerm (m := m) (n := n) env) (fun M => -M) := by
  intro d e d' hd he h
  obtain ⟨c, -, h⟩ := bind_some h
  cases c with
  | true => simp at h
  | false =>
    obtain rfl : d ++ [(e.1, e.2.neg)] = d' := by simpa using h
    refine ⟨keys_snoc hd he, (close_of_eq ?_).mono (mul_nonneg h0 (norm_nonneg _))⟩
    simp [Mat.neg]

theorem mergeTerm_ok (hc : NoCollision env.hash S b) (ht : Threshold env tol) (h0 : 0 ≤ tol) :
    StepOk app t S b tol (mergeTerm (m := m) (n := n) env) id := by
  intro d e d' hd he h
  obtain ⟨c, hm, rfl⟩ := map_some h
  have hm := mem_some hm
  cases c with
  | true => exact updatePop_sum hc ht h0 (fun N => rfl) he hd hm
  | false =>
    simp only [Bool.false_eq_true, if_false]
    split
    · rename_i htiny
      refine ⟨hd, ?_⟩
      have := (close_refl (dsum app t d)).add (ht.zero_close htiny (call app e.1 t))
      simpa using this
    · refine ⟨keys_snoc hd he, (close_of_eq ?_).mono (mul_nonneg h0 (norm_nonneg _))⟩
      simp

theorem initTerm_ok (hc : NoCollision env.hash S b) :
    StepOk app t S b 0 (initTerm (m := m) (n := n) env.hash) id := by
  intro d e d' hd he h
  obtain ⟨c, hm, rfl⟩ := map_some h
  have hm := mem_some hm
  rw [zero_mul]
  cases c with
  | true =>
    obtain ⟨k1, k2⟩ := update_sum (app := app) (t := t) hc (g := fun M => M.add e.2.asArray) (M := e.2.val)
      (fun N => rfl) he hd hm
    exact ⟨k1, close_of_eq k2⟩
  | false => exact ⟨keys_snoc hd he, close_of_eq (by simp [Mat.asArray])⟩

theorem staticTerm_sum (ht : Threshold env tol) (h0 : 0 ≤ tol) :
    ∀ {l d : List (Fn F A × Mat m n R)}, Keys S b d → Keys S b l →
      Keys S b (l.foldl (staticTerm env) d) ∧
        Close (tol * wsum app t l) (dsum app t (l.foldl (staticTerm env) d)) (dsum app t d + dsum app t l)
  | [], d, hd, _ => ⟨hd, by simpa using close_refl _⟩
  | e :: l, d, hd, hl => by
    rw [List.foldl_cons]
    have hstep : Keys S b (staticTerm env d e) ∧
        Close (tol * ‖call app e.1 t‖) (dsum app t (staticTerm env d e)) (dsum app t d + call app e.1 t • e.2.val) := by
      unfold staticTerm
      split
      · rename_i htiny
        refine ⟨hd, ?_⟩
        have := (close_refl (dsum app t d)).add (ht.zero_close htiny (call app e.1 t))
        simpa using this
      · refine ⟨keys_snoc hd (hl e (by simp)), (close_of_eq ?_).mono (mul_nonneg h0 (norm_nonneg _))⟩
        simp
    obtain ⟨k2, c2⟩ := staticTerm_sum ht h0 hstep.1 (l := l) (fun e' h' => hl e' (by simp [h']))
    refine ⟨k2, ?_⟩
    have := c2.trans (hstep.2.add (close_refl (dsum app t l)))
    rw [add_zero] at this
    rw [wsum_cons, dsum_cons, ← add_assoc, mul_add, add_comm (tol * _)]
    exact this

/-! ### The constructor -/

theorem foldl_add_val (l : List (Mat m n R)) : ∀ a : Mat m n R, (l.foldl Mat.add a).val = a.val + (l.map Mat.val).sum := by
  induction l with
  | nil => simp
  | cons x l ih => intro a; rw [List.foldl_cons, ih]; simp [Mat.add, add_assoc]

theorem ofMatrices_ok (hc : NoCollision env.hash S b) {st : List (Mat m n R)} {dyn : List (Fn F A × Mat m n R)}
    (hk : Keys S b dyn) {h : Ham F A m n R} (e : ofMatrices env.hash st dyn = some h) :
    Keys S b h.dynamic ∧ toMatrix app h t = (st.map Mat.val).sum + dsum app t dyn ∧
      h.static.val = (st.map Mat.val).sum ∧ dsum app t h.dynamic = dsum app t dyn := by
  obtain ⟨d, hd, rfl⟩ := map_some e
  obtain ⟨k1, c1⟩ := foldlM_sum (app := app) (t := t) (initTerm_ok hc) (fun e h => by simp at h) hk hd
  rw [zero_mul] at c1
  have c1 := eq_of_close c1
  have hs : ((st.foldl Mat.add Mat.zero).asArray).val = (st.map Mat.val).sum := by
    simp [Mat.asArray, foldl_add_val, Mat.zero]
  have hd' : dsum app t d = dsum app t dyn := by rw [c1]; simp [dsum]
  exact ⟨k1, by rw [toMatrix_eq]; simp only; rw [hs, hd'], hs, hd'⟩

theorem astype_ok (hc : NoCollision env.hash S b) {h new : Ham F A m n R} (hk : Keys S b h.dynamic)
    (e : astype env h = some new) :
    Keys S b new.dynamic ∧ toMatrix app new t = toMatrix app h t ∧ new.static.val = h.static.val ∧
      dsum app t new.dynamic = dsum app t h.dynamic := by
  obtain ⟨k, v, s, d⟩ := ofMatrices_ok (app := app) (t := t) hc hk e
  have s : new.static.val = h.static.val := by simpa using s
  exact ⟨k, by rw [toMatrix_eq, toMatrix_eq, s, d], s, d⟩

/-! ### Linear maps of the terms -/

/-- Multiplication from the right. -/
def mulR [Fintype n] (a : Matrix n k R) : Matrix m n R →ₗ[R] Matrix m k R where
  toFun M := M * a
  map_add' M N := Matrix.add_mul M N a
  map_smul' c M := Matrix.smul_mul c M a

/-- Multiplication from the left. -/
def mulL [Fintype m] (a : Matrix k m R) : Matrix m n R →ₗ[R] Matrix k n R where
  toFun M := a * M
  map_add' M N := Matrix.mul_add a M N
  map_smul' c M := Matrix.mul_smul a c M

/-- Negation. -/
def negL : Matrix m n R →ₗ[R] Matrix m n R where
  toFun M := -M
  map_add' M N := neg_add M N
  map_smul' c M := (smul_neg c M).symm

/-- Multiplication with a number. -/
def smulL (c : R) : Matrix m n R →ₗ[R] Matrix m n R where
  toFun M := c • M
  map_add' M N := smul_add c M N
  map_smul' d M := smul_comm c d M

/-- Transposition. -/
def transL : Matrix m n R →ₗ[R] Matrix n m R where
  toFun M := M.transpose
  map_add' M N := Matrix.transpose_add M N
  map_smul' c M := Matrix.transpose_smul c M

theorem dsum_map {m' n' : Type} (L : Matrix m n R →ₗ[R] Matrix m' n' R) (g : Mat m n R → Mat m' n' R)
    (hg : ∀ M, (g M).val = L M.val) (d : List (Fn F A × Mat m n R)) :
    dsum app t (d.map fun e => (e.1, g e.2)) = L (dsum app t d) := by
  induction d with
  | nil => simp
  | cons e d ih => rw [List.map_cons, dsum_cons, dsum_cons, ih, map_add, map_smul, hg]

/-- The same where only the matrices of the dictionary matter. -/
theorem dsum_map_mem {m' n' : Type} (L : Matrix m n R →ₗ[R] Matrix m' n' R) (g : Mat m n R → Mat m' n' R)
    (d : List (Fn F A × Mat m n R)) (hg : ∀ e ∈ d, (g e.2).val = L e.2.val) :
    dsum app t (d.map fun e => (e.1, g e.2)) = L (dsum app t d) := by
  induction d with
  | nil => simp
  | cons e d ih =>
    rw [List.map_cons, dsum_cons, dsum_cons, ih fun e h => hg e (by simp [h]), map_add, map_smul, hg e (by simp)]

theorem wsum_map {m' n' : Type} (g : Mat m n R → Mat m' n' R) (d : List (Fn F A × Mat m n R)) :
    wsum app t (d.map fun e => (e.1, g e.2)) = wsum app t d := by
  simp [wsum, Function.comp_def]

theorem keys_map {m' n' : Type} (g : Mat m n R → Mat m' n' R) {d : List (Fn F A × Mat m n R)} (h : Keys S b d) :
    Keys S b (d.map fun e => (e.1, g e.2)) := by
  intro e he
  obtain ⟨e', he', rfl⟩ := List.mem_map.1 he
  exact h e' he'

theorem filter_close (ht : Threshold env tol) (h0 : 0 ≤ tol) (d : List (Fn F A × Mat m n R)) :
    Close (tol * wsum app t d) (dsum app t (d.filter fun e => !env.tiny e.2.val)) (dsum app t d) := by
  induction d with
  | nil => simpa using close_refl _
  | cons e d ih =>
    rw [List.filter_cons, wsum_cons, mul_add]
    split
    · rw [dsum_cons, dsum_cons]
      exact ((close_refl _).add ih).mono (by
        rw [zero_add]; exact le_add_of_nonneg_left (mul_nonneg h0 (norm_nonneg _)))
    · rename_i hM
      rw [dsum_cons]
      have := (ht.zero_close (by simpa using hM) (call app e.1 t)).add ih
      rwa [zero_add] at this

theorem keys_filter {p : Fn F A × Mat m n R → Bool} {d : List (Fn F A × Mat m n R)} (h : Keys S b d) :
    Keys S b (d.filter p) := fun e he => h e (List.mem_filter.1 he).1

/-! ### Unary operations -/

theorem neg_ok (hc : NoCollision env.hash S b) {h new : Ham F A m n R} (hk : Keys S b h.dynamic)
    (e : neg env h = some new) : Keys S b new.dynamic ∧ toMatrix app new t = -toMatrix app h t := by
  obtain ⟨k, v, -⟩ := ofMatrices_ok (app := app) (t := t) hc (keys_map Mat.neg hk) e
  refine ⟨k, ?_⟩
  rw [v, toMatrix_eq, dsum_map negL Mat.neg (fun _ => rfl)]
  simp [Mat.neg, negL]; abel

theorem transpose_ok (hc : NoCollision env.hash S b) {h : Ham F A m n R} {new : Ham F A n m R}
    (hk : Keys S b h.dynamic) (e : transpose env h = some new) :
    Keys S b new.dynamic ∧ toMatrix app new t = (toMatrix app h t).transpose ∧
      new.static.val = h.static.val.transpose ∧ dsum app t new.dynamic = (dsum app t h.dynamic).transpose := by
  obtain ⟨k, v, s, d⟩ := ofMatrices_ok (app := app) (t := t) hc (keys_map Mat.trans hk) e
  rw [dsum_map transL Mat.trans (fun _ => rfl)] at d
  have s : new.static.val = h.static.val.transpose := by simpa [Mat.trans] using s
  exact ⟨k, by rw [toMatrix_eq, toMatrix_eq, s, d, Matrix.transpose_add]; rfl, s, d⟩

theorem conj_terms {d : List (Fn F A × Mat m n R)} : ∀ {d' : List (Fn F A × Mat m n R)}, Keys S b d →
    d.mapM (fun e => (Model.Drive.conjugate e.1).map fun f => (f, e.2.conj)) = some d' →
      Keys S b d' ∧ dsum app t d' = (dsum app t d).map star ∧ wsum app t d' = (d.map fun e => ‖star (call app e.1 t)‖).sum := by
  induction d with
  | nil =>
    intro d' _ h
    obtain rfl : [] = d' := by simpa using h
    exact ⟨fun e h => by simp at h, by ext i j; simp, by simp⟩
  | cons e d ih =>
    intro d' hk h
    rw [List.mapM_cons] at h
    obtain ⟨x, hx, h⟩ := bind_some h
    obtain ⟨y, hy, h⟩ := bind_some h
    obtain rfl : x :: y = d' := by simpa using h
    obtain ⟨f, hf, rfl⟩ := map_some hx
    obtain ⟨v, p, dg, q⟩ := Proof.Drive.conjugate_val (app := app) hf
    have hke := hk e (by simp)
    obtain ⟨k1, d1, w1⟩ := ih (fun e h => hk e (by simp [h])) hy
    refine ⟨?_, ?_, ?_⟩
    · intro e' he'
      rcases List.mem_cons.1 he' with rfl | he'
      · exact ⟨fun r hr => hke.1 r (p ▸ hr), dg ▸ hke.2.1, q⟩
      · exact k1 e' he'
    · rw [dsum_cons, dsum_cons, d1]
      ext i j
      simp [v, Mat.conj, mul_comm]
    · rw [wsum_cons, w1]; simp [v]

theorem conjugate_ok (hc : NoCollision env.hash S b) {h new : Ham F A m n R} (hk : Keys S b h.dynamic)
    (e : Model.Ham.conjugate env h = some new) :
    Keys S b new.dynamic ∧ toMatrix app new t = (toMatrix app h t).map star := by
  obtain ⟨d, hd, e⟩ := bind_some e
  obtain ⟨k1, d1, -⟩ := conj_terms (app := app) (t := t) hk hd
  obtain ⟨k, v, -⟩ := ofMatrices_ok (app := app) (t := t) hc k1 e
  refine ⟨k, ?_⟩
  rw [v, d1, toMatrix_eq]
  ext i j
  simp [Mat.conj]

theorem getH_ok (hc : NoCollision env.hash S b) {h : Ham F A m n R} {new : Ham F A n m R} (hk : Keys S b h.dynamic)
    (e : getH env h = some new) :
    Keys S b new.dynamic ∧ toMatrix app new t = (toMatrix app h t).conjTranspose := by
  obtain ⟨g, hg, e⟩ := bind_some e
  obtain ⟨k1, v1⟩ := conjugate_ok (app := app) (t := t) hc hk hg
  obtain ⟨k2, v2, -⟩ := transpose_ok (app := app) (t := t) hc k1 e
  refine ⟨k2, ?_⟩
  rw [v2, v1]
  rfl

/-! ### Sums -/

theorem sum_id (d : List (Fn F A × Mat m n R)) :
    (d.map fun e => call app e.1 t • id e.2.val).sum = dsum app t d := rfl

theorem sum_neg (d : List (Fn F A × Mat m n R)) :
    (d.map fun e => call app e.1 t • -e.2.val).sum = -dsum app t d := by
  induction d with
  | nil => simp
  | cons e d ih => rw [List.map_cons, List.sum_cons, ih, dsum_cons]; simp [smul_neg]; abel

theorem iaddHam_ok (hc : NoCollision env.hash S b) (ht : Threshold env tol) (h0 : 0 ≤ tol) {h g new : Ham F A m n R}
    (hk : Keys S b h.dynamic) (hg : Keys S b g.dynamic) (e : iaddHam env h g = some new) :
    Keys S b new.dynamic ∧
      Close (tol * (1 + wsum app t g.dynamic)) (toMatrix app new t) (toMatrix app h t + toMatrix app g t) := by
  obtain ⟨d, hd, rfl⟩ := map_some e
  obtain ⟨k1, c1⟩ := foldlM_sum (app := app) (t := t) (addTerm_ok hc ht h0) hk hg hd
  rw [sum_id] at c1
  refine ⟨k1, ?_⟩
  have := (clean_close ht h0 (h.static.add g.static)).add c1
  rw [toMatrix_eq, toMatrix_eq, toMatrix_eq, mul_add, mul_one]
  convert this using 1
  simp only [Mat.add]; abel

theorem addHam_ok (hc : NoCollision env.hash S b) (ht : Threshold env tol) (h0 : 0 ≤ tol) {h g new : Ham F A m n R}
    (hk : Keys S b h.dynamic) (hg : Keys S b g.dynamic) (e : addHam env h g = some new) :
    Keys S b new.dynamic ∧
      Close (tol * (1 + wsum app t g.dynamic)) (toMatrix app new t) (toMatrix app h t + toMatrix app g t) := by
  obtain ⟨h', hh, e⟩ := bind_some e
  obtain ⟨k, v, -⟩ := astype_ok (app := app) (t := t) hc hk hh
  rw [← v]
  exact iaddHam_ok hc ht h0 k hg e

theorem isub_aux (ht : Threshold env tol) (h0 : 0 ≤ tol) {h g : Ham F A m n R}
    {step : List (Fn F A × Mat m n R) → Fn F A × Mat m n R → Option (List (Fn F A × Mat m n R))}
    (hs : StepOk app t S b tol step fun M => -M)
    (hk : Keys S b h.dynamic) (hg : Keys S b g.dynamic) {d : List (Fn F A × Mat m n R)}
    (hd : g.dynamic.foldlM step h.dynamic = some d) :
    Keys S b d ∧ Close (tol * (1 + wsum app t g.dynamic))
      (toMatrix app ⟨clean env.tiny (h.static.sub g.static), d⟩ t) (toMatrix app h t - toMatrix app g t) := by
  obtain ⟨k1, c1⟩ := foldlM_sum hs hk hg hd
  rw [sum_neg] at c1
  refine ⟨k1, ?_⟩
  have := (clean_close ht h0 (h.static.sub g.static)).add c1
  rw [toMatrix_eq, toMatrix_eq, toMatrix_eq, mul_add, mul_one]
  convert this using 1
  simp only [Mat.sub]; abel

theorem subHam_ok (hc : NoCollision env.hash S b) (ht : Threshold env tol) (h0 : 0 ≤ tol) {h g new : Ham F A m n R}
    (hk : Keys S b h.dynamic) (hg : Keys S b g.dynamic) (e : subHam env h g = some new) :
    Keys S b new.dynamic ∧
      Close (tol * (1 + wsum app t g.dynamic)) (toMatrix app new t) (toMatrix app h t - toMatrix app g t) := by
  obtain ⟨h', hh, e⟩ := bind_some e
  obtain ⟨k, v, -⟩ := astype_ok (app := app) (t := t) hc hk hh
  obtain ⟨d, hd, rfl⟩ := map_some e
  rw [← v]
  exact isub_aux ht h0 (subTerm_ok hc ht h0) k hg hd

theorem isubHam_ok (ht : Threshold env tol) (h0 : 0 ≤ tol) {h g new : Ham F A m n R}
    (hk : Keys S b h.dynamic) (hg : Keys S b g.dynamic) (e : isubHam env h g = some new) :
    Keys S b new.dynamic ∧
      Close (tol * (1 + wsum app t g.dynamic)) (toMatrix app new t) (toMatrix app h t - toMatrix app g t) := by
  obtain ⟨d, hd, rfl⟩ := map_some e
  exact isub_aux ht h0 (isubTerm_ok h0) hk hg hd

theorem iaddMat_ok (ht : Threshold env tol) (h0 : 0 ≤ tol) {h new : Ham F A m n R} {a : Mat m n R}
    (hk : Keys S b h.dynamic) (e : iaddMat env h a = some new) :
    Keys S b new.dynamic ∧ Close tol (toMatrix app new t) (toMatrix app h t + a.val) := by
  obtain rfl : ⟨clean env.tiny (h.static.add a), h.dynamic⟩ = new := by simpa [iaddMat] using e
  refine ⟨hk, ?_⟩
  have := (clean_close ht h0 (h.static.add a)).add (close_refl (dsum app t h.dynamic))
  rw [toMatrix_eq, toMatrix_eq]
  rw [add_zero] at this
  convert this using 1
  simp only [Mat.add]; abel

theorem addMat_ok (hc : NoCollision env.hash S b) (ht : Threshold env tol) (h0 : 0 ≤ tol) {h new : Ham F A m n R}
    {a : Mat m n R} (hk : Keys S b h.dynamic) (e : addMat env h a = some new) :
    Keys S b new.dynamic ∧ Close tol (toMatrix app new t) (toMatrix app h t + a.val) := by
  obtain ⟨h', hh, rfl⟩ := map_some e
  obtain ⟨k, v, -⟩ := astype_ok (app := app) (t := t) hc hk hh
  rw [← v]
  exact iaddMat_ok ht h0 k rfl

theorem sub_aux (ht : Threshold env tol) (h0 : 0 ≤ tol) {h : Ham F A m n R} {a : Mat m n R} :
    Close tol (toMatrix app ⟨clean env.tiny (h.static.sub a), h.dynamic⟩ t) (toMatrix app h t - a.val) := by
  have := (clean_close ht h0 (h.static.sub a)).add (close_refl (dsum app t h.dynamic))
  rw [toMatrix_eq, toMatrix_eq]
  rw [add_zero] at this
  convert this using 1
  simp only [Mat.sub]; abel

theorem subMat_ok (hc : NoCollision env.hash S b) (ht : Threshold env tol) (h0 : 0 ≤ tol) {h new : Ham F A m n R}
    {a : Mat m n R} (hk : Keys S b h.dynamic) (e : subMat env h a = some new) :
    Keys S b new.dynamic ∧ Close tol (toMatrix app new t) (toMatrix app h t - a.val) := by
  obtain ⟨h', hh, rfl⟩ := map_some e
  obtain ⟨k, v, -⟩ := astype_ok (app := app) (t := t) hc hk hh
  rw [← v]
  exact ⟨k, sub_aux ht h0⟩

theorem isubMat_ok (ht : Threshold env tol) (h0 : 0 ≤ tol) {h new : Ham F A m n R} {a : Mat m n R}
    (hk : Keys S b h.dynamic) (e : isubMat env h a = some new) :
    Keys S b new.dynamic ∧ Close tol (toMatrix app new t) (toMatrix app h t - a.val) := by
  unfold isubMat at e
  split at e
  · obtain rfl : ⟨clean env.tiny (h.static.sub a), h.dynamic⟩ = new := by simpa using e
    exact ⟨hk, sub_aux ht h0⟩
  · simp at e

theorem rsubMat_ok (hc : NoCollision env.hash S b) (ht : Threshold env tol) (h0 : 0 ≤ tol) {h new : Ham F A m n R}
    {a : Mat m n R} (hk : Keys S b h.dynamic) (e : rsubMat env a h = some new) :
    Keys S b new.dynamic ∧ Close tol (toMatrix app new t) (a.val - toMatrix app h t) := by
  obtain ⟨g, hg, e⟩ := bind_some e
  obtain ⟨k, c⟩ := subMat_ok (app := app) (t := t) hc ht h0 hk hg
  obtain ⟨k2, v⟩ := neg_ok (app := app) (t := t) hc k e
  refine ⟨k2, fun i j => ?_⟩
  have := c i j
  rw [v, Matrix.neg_apply, Matrix.sub_apply, ← norm_neg]
  rw [Matrix.sub_apply] at this
  exact (le_of_eq (congrArg norm (by ring))).trans this

/-! ### Products with numbers and matrices -/

/-- A static part that is cleaned and terms that are mapped and filtered. -/
theorem mapped_ok {m' n' : Type} (ht : Threshold env tol) (h0 : 0 ≤ tol) {h : Ham F A m n R}
    (hk : Keys S b h.dynamic) (L : Matrix m n R →ₗ[R] Matrix m' n' R) (s : Mat m' n' R) (g : Mat m n R → Mat m' n' R)
    (hs : s.val = L h.static.val) (hg : ∀ e ∈ h.dynamic, (g e.2).val = L e.2.val) :
    Keys S b ((h.dynamic.map fun e => (e.1, g e.2)).filter fun e => !env.tiny e.2.val) ∧
    Close (tol * (1 + wsum app t h.dynamic))
      (toMatrix app ⟨clean env.tiny s, (h.dynamic.map fun e => (e.1, g e.2)).filter fun e => !env.tiny e.2.val⟩ t)
      (L (toMatrix app h t)) := by
  refine ⟨keys_filter (keys_map g hk), ?_⟩
  have h1 := filter_close (app := app) (t := t) ht h0 (h.dynamic.map fun e => (e.1, g e.2))
  rw [dsum_map_mem L g _ hg, wsum_map] at h1
  have := (clean_close ht h0 s).add h1
  rw [toMatrix_eq, toMatrix_eq, map_add, mul_add, mul_one]
  rwa [hs] at this

theorem imulScalar_ok (ht : Threshold env tol) (h0 : 0 ≤ tol) {c : R} {h new : Ham F A m n R}
    (hk : Keys S b h.dynamic) (e : imulScalar env c h = some new) :
    Keys S b new.dynamic ∧
      Close (tol * (1 + wsum app t h.dynamic)) (toMatrix app new t) (c • toMatrix app h t) := by
  obtain rfl : ⟨clean env.tiny (h.static.smul c), mapTerms env.tiny (Mat.smul c) h.dynamic⟩ = new := by
    simpa [imulScalar] using e
  exact mapped_ok ht h0 hk (smulL c) _ _ rfl fun _ _ => rfl

theorem wsum_eq_of_perm {d d' : List (Fn F A × Mat m n R)}
    (h : d'.map (fun e => e.1) = d.map (fun e => e.1)) : wsum app t d' = wsum app t d := by
  have : ∀ x : List (Fn F A × Mat m n R), wsum app t x = ((x.map fun e => e.1).map fun f => ‖call app f t‖).sum := by
    intro x; simp [wsum, Function.comp_def]
  rw [this, this, h]

theorem update_weight {H : PyHash F A} {f : Fn F A} {g : Mat m n R → Mat m n R} (d : List (Fn F A × Mat m n R)) :
    (update H f g d).map (fun e => e.1) = d.map fun e => e.1 := by
  induction d with
  | nil => rfl
  | cons e d ih => rw [update]; split <;> simp [ih]

theorem init_weight : ∀ {l d d' : List (Fn F A × Mat m n R)}, l.foldlM (initTerm env.hash) d = some d' →
    wsum app t d' ≤ wsum app t d + wsum app t l
  | [], d, d', h => by
    obtain rfl : d = d' := by simpa using h
    simp
  | e :: l, d, d', h => by
    rw [List.foldlM_cons] at h
    obtain ⟨d1, h1, h2⟩ := bind_some h
    have := init_weight h2
    obtain ⟨c, -, rfl⟩ := map_some h1
    rw [wsum_cons]
    have hn := norm_nonneg (call app e.1 t)
    cases c
    · simp only [Bool.false_eq_true, if_false, wsum_append, wsum_cons, wsum_nil] at this
      linarith
    · simp only [if_true] at this
      rw [wsum_eq_of_perm (update_weight d)] at this
      linarith

theorem astype_weight {h new : Ham F A m n R} (e : astype env h = some new) :
    wsum app t new.dynamic ≤ wsum app t h.dynamic := by
  obtain ⟨d, hd, rfl⟩ := map_some e
  simpa using init_weight (app := app) (t := t) hd

theorem weight_mono (h0 : 0 ≤ tol) {h new : Ham F A m n R} (e : astype env h = some new) :
    tol * (1 + wsum app t new.dynamic) ≤ tol * (1 + wsum app t h.dynamic) :=
  mul_le_mul_of_nonneg_left (by have := astype_weight (app := app) (t := t) e; linarith) h0

theorem mulScalar_ok (hc : NoCollision env.hash S b) (ht : Threshold env tol) (h0 : 0 ≤ tol) {c : R}
    {h new : Ham F A m n R} (hk : Keys S b h.dynamic) (e : mulScalar env c h = some new) :
    Keys S b new.dynamic ∧
      Close (tol * (1 + wsum app t h.dynamic)) (toMatrix app new t) (c • toMatrix app h t) := by
  obtain ⟨h', hh, rfl⟩ := map_some e
  obtain ⟨k, v, -⟩ := astype_ok (app := app) (t := t) hc hk hh
  obtain ⟨k2, c2⟩ := imulScalar_ok (app := app) (t := t) ht h0 (c := c) k rfl
  rw [← v]
  exact ⟨k2, c2.mono (weight_mono h0 hh)⟩

section Square

variable [Fintype n] [Fintype m]

theorem star_val {a c : Mat n n R} (h : ¬(a.fmt = .array ∧ c.fmt = .array)) : (a.star c).val = a.val * c.val := by
  rw [Mat.star, if_neg h]; rfl

theorem mulSparse_ok (hc : NoCollision env.hash S b) (ht : Threshold env tol) (h0 : 0 ≤ tol) {a : Mat n n R}
    {h new : Ham F A n n R} (hk : Keys S b h.dynamic) (ha : a.fmt ≠ .array) (e : mulSparse env h a = some new) :
    Keys S b new.dynamic ∧
      Close (tol * (1 + wsum app t h.dynamic)) (toMatrix app new t) (toMatrix app h t * a.val) := by
  obtain ⟨h', hh, rfl⟩ := map_some e
  obtain ⟨k, v, -⟩ := astype_ok (app := app) (t := t) hc hk hh
  obtain ⟨k2, c2⟩ := mapped_ok (app := app) (t := t) ht h0 k (mulR a.val) (h'.static.star a) (fun M => M.star a)
    (star_val fun h => ha h.2) (fun e _ => star_val fun h => ha h.2)
  rw [← v]
  exact ⟨k2, c2.mono (weight_mono h0 hh)⟩

theorem mapM_some {tiny : Matrix n n R → Bool} {a : Mat n n R} {d d' : List (Fn F A × Mat n n R)}
    (h : mapTermsM tiny (fun M => a.dot M) d = some d') :
    d' = (d.map fun e => (e.1, a.prod e.2)).filter fun e => !tiny e.2.val := by
  obtain ⟨l, hl, rfl⟩ := map_some h
  congr 1
  induction d generalizing l with
  | nil =>
    obtain rfl : [] = l := by simpa using hl
    rfl
  | cons e d ih =>
    rw [List.mapM_cons] at hl
    obtain ⟨x, hx, hl⟩ := bind_some hl
    obtain ⟨y, hy, hl⟩ := bind_some hl
    obtain rfl : x :: y = l := by simpa using hl
    obtain ⟨M, hM, rfl⟩ := map_some hx
    have : M = a.prod e.2 := by
      have hM : (if a.fmt ≠ .sparse ∧ e.2.fmt = .sparse then none else some (a.prod e.2)) = some M := hM
      split at hM
      · simp at hM
      · simpa using hM.symm
    rw [List.map_cons, ih y hy (by simp [mapTermsM]; exact ⟨y, hy, rfl⟩), this]

theorem rmulSparse_ok (hc : NoCollision env.hash S b) (ht : Threshold env tol) (h0 : 0 ≤ tol) {a : Mat n n R}
    {h new : Ham F A n n R} (hk : Keys S b h.dynamic) (ha : a.fmt = .array → h.static.fmt = .sparse)
    (e : rmulSparse env a h = some new) :
    Keys S b new.dynamic ∧
      Close (tol * (1 + wsum app t h.dynamic)) (toMatrix app new t) (a.val * toMatrix app h t) := by
  obtain ⟨h', hh, e⟩ := bind_some e
  obtain ⟨d, hd, rfl⟩ := map_some e
  obtain ⟨k, v, -⟩ := astype_ok (app := app) (t := t) hc hk hh
  have hf : h'.static.fmt = (Fmt.sparse.add h.static.fmt).asArray := by
    obtain ⟨d, -, rfl⟩ := map_some hh
    rfl
  obtain ⟨k2, c2⟩ := mapped_ok (app := app) (t := t) ht h0 k (mulL a.val) (a.star h'.static) (fun M => a.prod M)
    (star_val fun h => by rw [hf, ha h.1] at h; simp [Fmt.add, Fmt.asArray] at h) (fun e _ => rfl)
  rw [← v, mapM_some hd]
  exact ⟨k2, c2.mono (weight_mono h0 hh)⟩

theorem imulDense_ok (ht : Threshold env tol) (h0 : 0 ≤ tol) {a : Mat n k R} {h : Ham F A m n R} {new : Ham F A m k R}
    (hk : Keys S b h.dynamic) (e : imulDense env h a = some new) :
    Keys S b new.dynamic ∧
      Close (tol * (1 + wsum app t h.dynamic)) (toMatrix app new t) (toMatrix app h t * a.val) := by
  obtain rfl : ⟨clean env.tiny (h.static.prod a).asArray, mapTerms env.tiny (fun M => (M.prod a).asArray) h.dynamic⟩ = new := by
    simpa [imulDense] using e
  exact mapped_ok ht h0 hk (mulR a.val) _ (fun M => (M.prod a).asArray) rfl fun _ _ => rfl

theorem mulDense_ok (hc : NoCollision env.hash S b) (ht : Threshold env tol) (h0 : 0 ≤ tol) {a : Mat n k R}
    {h : Ham F A m n R} {new : Ham F A m k R} (hk : Keys S b h.dynamic) (e : mulDense env h a = some new) :
    Keys S b new.dynamic ∧
      Close (tol * (1 + wsum app t h.dynamic)) (toMatrix app new t) (toMatrix app h t * a.val) := by
  obtain ⟨h', hh, rfl⟩ := map_some e
  obtain ⟨k', v, -⟩ := astype_ok (app := app) (t := t) hc hk hh
  obtain ⟨k2, c2⟩ := imulDense_ok (app := app) (t := t) ht h0 (a := a) k' rfl
  rw [← v]
  exact ⟨k2, c2.mono (weight_mono h0 hh)⟩

theorem rmulDense_ok (hc : NoCollision env.hash S b) (ht : Threshold env tol) (h0 : 0 ≤ tol) {a : Mat k m R}
    {h : Ham F A m n R} {new : Ham F A k n R} (hk : Keys S b h.dynamic) (e : rmulDense env a h = some new) :
    Keys S b new.dynamic ∧
      Close (tol * (1 + wsum app t h.dynamic)) (toMatrix app new t) (a.val * toMatrix app h t) := by
  obtain ⟨h', hh, rfl⟩ := map_some e
  obtain ⟨k', v, -⟩ := astype_ok (app := app) (t := t) hc hk hh
  obtain ⟨k2, c2⟩ := mapped_ok (app := app) (t := t) ht h0 k' (mulL a.val) (a.prod h'.static).asArray
    (fun M => (a.prod M).asArray) rfl fun _ _ => rfl
  rw [← v]
  exact ⟨k2, c2.mono (weight_mono h0 hh)⟩

end Square

end Proof.Ham
