import Verif.Proof.SemiVec
import Verif.Props.C74
/-!
C75: `project_from` (`get_vec`) and `get_proj` of a one-dimensional basis in the blocks of momentum and reflection (or the product of reflection and inversion): a
vector of the block is taken to the combination of the normalised semi-momentum states of C74, although a configuration may appear twice in the basis.  The dense
and the sparse version agree, inner products are kept, and the states of the basis, which are moved about in place, are restored.
-/
namespace Props
open Spec Spec.Semi Model Model.Chain Proof.Chain Proof.Semi
open Spec.Chain (Fits HasFlip)
open scoped BigOperators Matrix

/-- `project_from`, dense and sparse, gives the vector with the components `v` along the vectors `e` and restores the basis; inner products are kept; the columns of
`get_proj` are the vectors `e`, in the full space or in the sector `l` listed in decreasing order. -/
structure GivesVectors (w : Option ℕ) (B : Model.Chain.Blocks) (c : Spec.Chain) (ops : List Generator) (basis : List (ℕ × Int × ℕ))
    (e : Fin basis.length → Fin c.size → ℂ) : Prop where
  dense : ∀ (v : Fin basis.length → ℂ) (t : Fin c.size), (projectDense w B c basis (List.ofFn v)).2 (c.size - 1 - t) = ∑ i, v i * e i t
  sparse : ∀ (v : Fin basis.length → ℂ) (t : Fin c.size), (projectSparse w B c basis (List.ofFn v)).2 (c.size - 1 - t) = ∑ i, v i * e i t
  restored : ∀ v : Fin basis.length → ℂ, (projectDense w B c basis (List.ofFn v)).1 = basis.map (·.1) ∧
    (projectSparse w B c basis (List.ofFn v)).1 = basis.map (·.1)
  inner : ∀ u v : Fin basis.length → ℂ, ∑ j ∈ Finset.range c.size, (starRingEnd ℂ) ((projectDense w B c basis (List.ofFn u)).2 j) *
    (projectDense w B c basis (List.ofFn v)).2 j = ∑ i, (starRingEnd ℂ) (u i) * v i
  column : ∀ (i : Fin basis.length) (t : Fin c.size), projColumn w B c none basis i (c.size - 1 - t) = e i t
  columnIn : ∀ (i : Fin basis.length) l, (hl : IsSectorOf c.size ops l) → (∀ x ∈ basis, x.1 ∈ l) → ∀ j (hj : j < l.length),
    projColumn w B c (some l) basis i (l.length - 1 - j) = e i ⟨l[j], hl.below _ (List.getElem_mem hj)⟩

/-- the loop, on any set of configurations closed under the operations, gives the vectors -/
theorem gives_of {w : Option ℕ} {B : Model.Chain.Blocks} {c : Spec.Chain} {ops : List Generator} {target : Bool → ℕ → ℕ → ℂ}
    (hm : ∀ S : ℕ → Prop, (∀ t, S t → t < c.size) → (∀ y ∈ ops, ∀ t, S t → S (y.img t)) → LoopSum S w B c target)
    (hops : ∀ y ∈ ops, ∀ t < c.size, y.img t < c.size) {basis : List (ℕ × Int × ℕ)} (hb : ∀ x ∈ basis, x.1 < c.size)
    (hn : basis.Pairwise fun x y => negOf B x = negOf B y → x.1 ≠ y.1) {e : Fin basis.length → Fin c.size → ℂ}
    (he : ∀ i (t : Fin c.size), target (negOf B basis[i]) basis[i].1 t / (Real.sqrt (normSq B c.length basis[i].2.1 basis[i].2.2) : ℝ) = e i t)
    (ho : ∀ i j, ∑ t, (starRingEnd ℂ) (e i t) * e j t = if i = j then 1 else 0) : GivesVectors w B c ops basis e := by
  have hd := hm (· < c.size) (fun _ h => h) hops
  have key : ∀ (add : (ℕ → ℂ) → List (ℕ × ℂ) → ℕ → ℂ) (_ : AddsUp add) (sp : Bool) (v : Fin basis.length → ℂ),
      ((runRounds add (fun x => c.size - 1 - x) (sections sp B (bitopsOf w (stepOf B c) c)) (shiftOf w (c.length - stepOf B c) c) (phaseC B c.length)
        (rounds B c.length) (columnsOf B c.length basis (List.ofFn v), fun _ => 0)).1.map (·.x.1)) = basis.map (·.1) ∧
      ∀ t : Fin c.size, (runRounds add (fun x => c.size - 1 - x) (sections sp B (bitopsOf w (stepOf B c) c)) (shiftOf w (c.length - stepOf B c) c)
        (phaseC B c.length) (rounds B c.length) (columnsOf B c.length basis (List.ofFn v), fun _ => 0)).2 (c.size - 1 - t) = ∑ i, v i * e i t := by
    intro add hadd sp v
    have := loop_expand hd (fun _ h => h) hadd (row := fun x => c.size - 1 - x) (row_inj c.size) sp basis (List.ofFn v) (by simp) hb hn
    refine ⟨this.1, fun t => ?_⟩
    rw [this.2 t t.2, zip_ofFn]
    refine Finset.sum_congr rfl fun i _ => ?_
    rw [he i t]
  have hdense : ∀ (v : Fin basis.length → ℂ) (t : Fin c.size), (projectDense w B c basis (List.ofFn v)).2 (c.size - 1 - t) = ∑ i, v i * e i t :=
    fun v => (key fancyAdd dense_adds false v).2
  have hunit : ∀ i : Fin basis.length, ((List.range basis.length).map fun j => if j = (i : ℕ) then (1 : ℂ) else 0)
      = List.ofFn fun j : Fin basis.length => if j = i then (1 : ℂ) else 0 := by
    intro i
    apply List.ext_getElem
    · simp
    · intro j h1 h2
      simp [Fin.ext_iff]
  refine ⟨hdense, fun v => (key sparseAdd sparse_adds true v).2,
    fun v => ⟨(key fancyAdd dense_adds false v).1, (key sparseAdd sparse_adds true v).1⟩, ?_, ?_, ?_⟩
  · intro u v
    rw [← Fin.sum_univ_eq_sum_range (fun j => (starRingEnd ℂ) ((projectDense w B c basis (List.ofFn u)).2 j) * (projectDense w B c basis (List.ofFn v)).2 j),
      ← Equiv.sum_comp Fin.revPerm]
    have hrev : ∀ t : Fin c.size, ((Fin.revPerm t : Fin c.size) : ℕ) = c.size - 1 - t := by
      intro t
      rw [Fin.revPerm_apply, Fin.val_rev]; omega
    simp only [hrev, hdense, map_sum, map_mul, Finset.sum_mul, Finset.mul_sum]
    rw [Finset.sum_comm]
    refine Finset.sum_congr rfl fun i _ => ?_
    rw [Finset.sum_comm]
    have : ∀ j, ∑ t, (starRingEnd ℂ) (u j) * (starRingEnd ℂ) (e j t) * (v i * e i t) = (starRingEnd ℂ) (u j) * v i * (if j = i then 1 else 0) := by
      intro j
      rw [← ho j i, Finset.mul_sum]
      exact Finset.sum_congr rfl fun t _ => by ring
    simp only [this]
    simp
  · intro i t
    unfold projColumn
    rw [hunit]
    refine ((key sparseAdd sparse_adds false _).2 t).trans ?_
    simp
  · intro i l hl hbl j hj
    have hrank : ∀ t ∈ l, ∃ m, ∃ h : m < l.length, l[m] = t ∧ (l.filter fun y => y < t).length = m := by
      intro t ht
      obtain ⟨m, h1, h2⟩ := List.mem_iff_getElem.1 ht
      exact ⟨m, h1, h2, by rw [← h2]; exact sorted_rank hl.increasing m h1⟩
    have := (loop_expand (hm (· ∈ l) hl.below hl.closed) hl.below sparse_adds (row := fun x => l.length - (l.filter fun y => y < x).length - 1) (by
        intro t u ht hu e
        obtain ⟨m, h1, h2, h3⟩ := hrank t ht
        obtain ⟨m', h1', h2', h3'⟩ := hrank u hu
        rw [h3, h3'] at e
        have : m = m' := by omega
        subst this
        exact h2.symm.trans h2') false basis
      (List.ofFn fun j : Fin basis.length => if j = i then (1 : ℂ) else 0) (by simp) hbl hn).2 l[j] (List.getElem_mem hj)
    rw [sorted_rank hl.increasing j hj, zip_ofFn] at this
    unfold projColumn
    simp only
    rw [hunit, show l.length - 1 - j = l.length - j - 1 by omega]
    refine this.trans ?_
    simp only [ite_mul, one_mul, zero_mul, Finset.sum_ite_eq', Finset.mem_univ, if_true]
    exact he i ⟨l[j], hl.below _ (List.getElem_mem hj)⟩

/-- translation and a reflection `R`, given the norms -/
theorem gives_semi {w : Option ℕ} {B : Model.Chain.Blocks} {c : Spec.Chain} (h : Fits w c) {T n k : ℕ} (hT : 0 < T) (hn : 0 < n) (hL : c.length = T * n) {p : Int}
    (hp : p = 1 ∨ p = -1) (hk : B.k = some k) (ha : B.a = T) (hpz : B.p.isSome ∨ B.pz.isSome) {R : BitOp}
    (hd : Dihedral (· < c.size) (shiftOf w T c) R n) (yT yR : Generator) (iT : ∀ s < c.size, yT.img s = (shiftOf w T c s).1)
    (iR : ∀ s < c.size, yR.img s = (R s).1) (fs : Bool → List BitOp) (us : List BitOp)
    (hfs : ∀ sp, ∀ x : ℕ × Int, x.1 < c.size → applyOps (fs sp) x = step R x)
    (hsec : ∀ sp, sections sp B (bitopsOf w T c) = [⟨[], [], 1⟩, ⟨fs sp, us, p⟩]) (hu : ∀ sp, Undone (· < c.size) ⟨fs sp, us, p⟩)
    {keep : ℕ → List (Int × ℕ)} (hkeep : ∀ s < c.size, keep s = keepT_P (checkT_Z (shiftOf w T c) R k (T * n) T) p k (T * n) T s)
    {next : ℕ → ℕ} {nosymm : ℕ → Bool} {MAX s0 : ℕ} (hinc : (visited next MAX s0).Pairwise (· < ·))
    (hs : IsSectorOf c.size [yT, yR] ((visited next MAX s0).filter nosymm))
    {basis : List (ℕ × (Int × ℕ))} (hb : basis = blockBasisList next nosymm keep MAX s0)
    (hnorm : ∀ x ∈ basis, (∃ s < c.size, x.2 ∈ keepT_P (checkT_Z (shiftOf w T c) R k (T * n) T) p k (T * n) T s) →
      normSq B c.length x.2.1 x.2.2 = kappa n k * n ^ 2 * weightT_P p k (T * n) T x.2) :
    GivesVectors w B c [yT, yR] basis (semiState c.size (opMat c.size (shiftOf w T c)) (opMat c.size R) n k p basis) := by
  have hbelow := hs.below
  have hl : Listed (keepT_P (checkT_Z (shiftOf w T c) R k (T * n) T) p k (T * n) T) ((visited next MAX s0).filter nosymm) basis := by
    have := listed_block keep next nosymm MAX s0 hinc (fun s hs => by
      rw [hkeep s (hbelow s hs)]; exact (keep_list (k := k) hd hT hp (hbelow s hs)).1)
    rw [← hb] at this
    refine ⟨this.sorted, this.nodup, fun s d => (this.mem s d).trans ?_⟩
    constructor
    · rintro ⟨h1, h2⟩; exact ⟨h1, by rw [← hkeep s (hbelow s h1)]; exact h2⟩
    · rintro ⟨h1, h2⟩; exact ⟨h1, by rw [hkeep s (hbelow s h1)]; exact h2⟩
  have hneg : ∀ x, negOf B x = decide (x.2.1 < 0) := by
    intro x
    unfold negOf
    simp [hk, hpz]
  have hsig : ∀ x ∈ basis, x.2.1 ≠ 0 ∧ sigmaOf x.2 = if negOf B x then -1 else 1 := by
    rintro ⟨s, d⟩ hx
    obtain ⟨m1, m2⟩ := (hl.mem s d).1 hx
    obtain ⟨r, γ, δ, hk', _⟩ := kept_of_mem hd hT hp (hbelow s m1) m2
    have h0 : d.1 ≠ 0 := by
      rw [hk'.num]
      have := hk'.least.pos
      rcases hk'.sig with e | e <;> rw [e] <;> omega
    refine ⟨h0, ?_⟩
    rw [hneg]
    unfold sigmaOf
    by_cases h1 : d.1 > 0
    · simp [h1]; omega
    · have : d.1 < 0 := by omega
      simp [h1, this]
  refine gives_of (target := fun neg s t => if ht : t < c.size then st c.size (shiftOf w T c) R n k p (if neg then -1 else 1) s ⟨t, ht⟩ else 0) ?_ ?_ ?_ ?_ ?_ ?_
  · intro S hS hcl
    refine loop_semi h hS k T n hT hn hL hk ha hpz p hd ?_ fs us hfs hsec ?_
    · intro t ht
      rw [← iT t (hS t ht)]
      exact hcl yT (by simp) t ht
    · intro sp
      refine (hu sp).mono hS ?_
      intro t ht
      show S (applyOps (fs sp) (t, 1)).1
      rw [hfs sp (t, 1) (hS t ht)]
      show S (R t).1
      rw [← iR t (hS t ht)]
      exact hcl yR (by simp) t ht
  · intro y hy t ht
    simp only [List.mem_cons, List.not_mem_nil, or_false] at hy
    rcases hy with rfl | rfl
    · rw [iT t ht]; exact hd.cyc.closed t ht
    · rw [iR t ht]; exact hd.closed t ht
  · rintro ⟨s, d⟩ hx
    exact hbelow s ((hl.mem s d).1 hx).1
  · have hnd := hl.nodup
    rw [List.nodup_iff_pairwise_ne] at hnd
    refine hnd.imp_of_mem ?_
    rintro ⟨s, d⟩ ⟨s', d'⟩ hx hy hne hnn hss
    simp only at hss
    subst hss
    obtain ⟨m1, m2⟩ := (hl.mem s d).1 hx
    obtain ⟨m3, m4⟩ := (hl.mem s d').1 hy
    obtain ⟨_, _, _, hkl⟩ := keep_list (k := k) hd hT hp (hbelow s m1)
    have hdd : d ≠ d' := fun e => hne (by rw [e])
    have h3 := (hkl d m2 d' m4 hdd).2.2
    have h4 := (hsig _ hx).2
    have h5 := (hsig _ hy).2
    simp only at h4 h5
    rw [h4, h5, hnn] at h3
    split_ifs at h3
    omega
  · intro i t
    have hx : basis[i] ∈ basis := List.getElem_mem _
    have hx' : basis[i].1 ∈ (visited next MAX s0).filter nosymm ∧ basis[i].2 ∈ _ := (hl.mem basis[i].1 basis[i].2).1 hx
    rw [dif_pos t.2, hnorm _ hx ⟨_, hbelow _ hx'.1, hx'.2⟩, ← ent_norm hd hT hp hbelow hl hx, ← (hsig _ hx).2]
    unfold semiState
    rw [state_sign hn]
    unfold ent normalized
    rw [Pi.smul_apply, smul_eq_mul, div_eq_inv_mul]
    push_cast
    rfl
  · intro i j
    have := ent_orthonormal hd hT hp hbelow hl i j
    unfold semiState
    simp only [state_sign hn]
    exact this

section
variable (w : Option ℕ) (c : Spec.Chain) (h : Fits w c) (next : ℕ → ℕ) (nosymm : ℕ → Bool) (MAX s0 : ℕ)
  (hinc : (visited next MAX s0).Pairwise (· < ·)) (T n k : ℕ) (hT : 0 < T) (hn : 0 < n) (hL : c.length = T * n) (hk : k < n) (p : Int) (hp : p = 1 ∨ p = -1)

include h hinc hT hn hL hk hp

/-- Momentum and reflection, `L = T n`, `kblock` reduced to `0, …, n-1`.  Missing: momentum π with a unit cell of more than one site, where it fails
(`C75_fails_unit_cell`). -/
theorem C75_momentum_reflection_partial (ha : T = 1 ∨ 2 * k ≠ n) (yT yP : Generator) (hyT : c.IsSymmetry (c.shift T) yT) (hyP : c.IsSymmetry c.parity yP)
    (hs : IsSectorOf c.size [yT, yP] ((visited next MAX s0).filter nosymm)) :
    let basis := blockBasisList next nosymm (keepT_P (checkT_Z (shiftOf w T c) (flipLROf w c) k c.length T) p k c.length T) MAX s0
    GivesVectors w { a := T, k := some k, p := some p } c [yT, yP] basis (semiState c.size (matrixOf c.size yT) (matrixOf c.size yP) n k p basis) := by
  have hTL : T ≤ c.length := by rw [hL]; exact Nat.le_mul_of_pos_right _ hn
  obtain ⟨e1, i1⟩ := matrixOf_isSymmetry (shift_site c T n hT hn hL) hyT (shift_isSymmetry h T hT hTL)
  obtain ⟨e2, i2⟩ := matrixOf_isSymmetry (parity_site c) hyP (parity_isSymmetry h)
  simp only [e1, e2]
  have hd := dihedral_chain h T n hT hn hL
  have hu := undone_one (order_two_acts h (parity_site c) (parity_isSymmetry h 2 0) rfl) hp
  refine gives_semi h hT hn hL hp rfl rfl (Or.inl rfl) hd yT yP i1 i2 (fun _ => [flipLROf w c]) [flipLROf w c] (fun _ _ _ => rfl)
    (fun sp => by simp [sections, bitopsOf]) (fun _ => hu) ?_ hinc hs rfl ?_
  · intro s _; rw [hL]
  · rintro ⟨s, d⟩ hx ⟨s', hs', hd'⟩
    simp only at hd' ⊢
    obtain ⟨r, γ, δ, hk', _⟩ := kept_of_mem hd hT hp hs' hd'
    have h0 : d.1 ≠ 0 := by
      rw [hk'.num]
      have := hk'.least.pos
      rcases hk'.sig with e | e <;> rw [e] <;> omega
    rw [hL]
    exact norm_reflection hT hn hk ha p rfl (semi_code hd hs' hd').2 h0

/-- Momentum and the product of reflection and inversion, in chains of up to 63 sites.  Missing: longer chains, where the code stored with a state is read as a signed
byte. -/
theorem C75_momentum_product_partial (h63 : c.length ≤ 63) (hF : HasFlip c) (yT yP yZ : Generator) (hyT : c.IsSymmetry (c.shift T) yT)
    (hyP : c.IsSymmetry c.parity yP) (hyZ : c.IsSymmetry c.flip yZ) (hs : IsSectorOf c.size [yT, both yZ yP 0] ((visited next MAX s0).filter nosymm)) :
    let basis := blockBasisList next nosymm (keepT_P (checkT_PZ (shiftOf w T c) (flipLROf w c) (flipAllOf w c) k c.length T) p k c.length T) MAX s0
    GivesVectors w { a := T, k := some k, pz := some p } c [yT, both yZ yP 0] basis
      (semiState c.size (matrixOf c.size yT) (matrixOf c.size yZ * matrixOf c.size yP) n k p basis) := by
  have hTL : T ≤ c.length := by rw [hL]; exact Nat.le_mul_of_pos_right _ hn
  obtain ⟨e1, i1⟩ := matrixOf_isSymmetry (shift_site c T n hT hn hL) hyT (shift_isSymmetry h T hT hTL)
  obtain ⟨e2, i2⟩ := matrixOf_isSymmetry (parity_site c) hyP (parity_isSymmetry h)
  obtain ⟨e3, i3⟩ := matrixOf_isSymmetry (flip_site c hF) hyZ (flip_isSymmetry h hF)
  have hd := dihedral_chain h T n hT hn hL
  have aTZ : Acts (· < c.size) [gen (shiftOf w T c) n 0, gen (flipAllOf w c) 2 0] := pair_acts h (shift_site c T n hT hn hL) (flip_site c hF)
    (shift_isSymmetry h T hT hTL n 0) (flip_isSymmetry h hF 2 0) (shift_flip c T hTL)
  have aPZ : Acts (· < c.size) [gen (flipLROf w c) 2 0, gen (flipAllOf w c) 2 0] := pair_acts h (parity_site c) (flip_site c hF)
    (parity_isSymmetry h 2 0) (flip_isSymmetry h hF 2 0) (Proof.Chain.parity_flip c)
  have hcomm : ∀ s, s < c.size → step (flipLROf w c) (step (flipAllOf w c) (s, 1)) = step (flipAllOf w c) (step (flipLROf w c) (s, 1)) :=
    fun s hs' => aPZ.commute (gen (flipLROf w c) 2 0) (by simp) (gen (flipAllOf w c) 2 0) (by simp) s hs'
  have hd' : Dihedral (· < c.size) (shiftOf w T c) (andThen (flipLROf w c) (flipAllOf w c)) n := by
    refine dihedral_comp hd (fun s hs' => aTZ.closed (gen (flipAllOf w c) 2 0) (by simp) s hs')
      (fun s hs' => aTZ.sign (gen (flipAllOf w c) 2 0) (by simp) s hs') (fun s hs' => aTZ.period (gen (flipAllOf w c) 2 0) (by simp) s hs')
      (fun s hs' => aTZ.commute (gen (shiftOf w T c) n 0) (by simp) (gen (flipAllOf w c) 2 0) (by simp) s hs') hcomm
  have hstep : ∀ x : ℕ × Int, step (flipAllOf w c) (step (flipLROf w c) x) = step (andThen (flipLROf w c) (flipAllOf w c)) x := by
    intro x
    unfold andThen step
    simp [mul_assoc]
  simp only [e1, e2, e3, ← opMat_comp (Z := flipAllOf w c) hd.closed]
  refine gives_semi h hT hn hL hp rfl rfl (Or.inr rfl) hd' yT (both yZ yP 0) i1 ?_
    (fun sp => if sp then [flipAllOf w c, flipLROf w c] else [flipLROf w c, flipAllOf w c]) [flipLROf w c, flipAllOf w c] ?_
    (fun sp => by simp [sections, bitopsOf]) (fun sp => undone_two aPZ hp sp) ?_ hinc hs rfl ?_
  · intro s hs'
    simp only [both]
    rw [i2 s hs', i3 _ (hd.closed s hs')]
    rfl
  · intro sp x hx
    rw [← hstep]
    cases sp
    · rfl
    · exact step_comm aPZ x hx
  · intro s hs'; rw [hL]; exact keep_product (hcomm s hs')
  · rintro ⟨s, d⟩ hx ⟨s', hs', hm⟩
    simp only at hm ⊢
    obtain ⟨r, γ, δ, hk', _⟩ := kept_of_mem hd' hT hp hs' hm
    have h0 : d.1 ≠ 0 := by
      rw [hk'.num]
      have := hk'.least.pos
      rcases hk'.sig with e | e <;> rw [e] <;> omega
    have hc := semi_code hd' hs' hm
    have hdiv : T * n / T ≤ T * n := Nat.div_le_self _ _
    rw [hL] at h63 ⊢
    exact norm_product hT hn hk p rfl hc.2 (by omega) h0

end

/-- Four sites with a unit cell of two, momentum π (`kblock=1`) and `pblock=1`: the configuration `1000` is in the block, but `base_1d.py:874-875` looks for
`2*kblock == L`, where momentum π is `2*kblock == L/a`.  The vector returned for this state of the basis has squared norm 2. -/
theorem C75_fails_unit_cell : let c : Spec.Chain := .twoLevel 4
    keepT_P (checkT_Z (shiftOf (some 32) 2 c) (flipLROf (some 32) c) 1 c.length 2) 1 1 c.length 2 8 = [(2, 0)] ∧
    ∑ j ∈ Finset.range c.size, ‖(projectDense (some 32) { a := 2, k := some 1, p := some 1 } c [(8, (2, 0))] [1]).2 j‖ ^ 2 = 2 := by
  intro c
  have h : Fits (some 32) c := ⟨by show 0 < 4; omega, fun v hv => by cases hv; show 4 ≤ 32; omega⟩
  have e1 : checkT_Z (shiftOf (some 32) 2 c) (flipLROf (some 32) c) 1 4 2 8 = (2, -1, 1) := by decide +kernel
  have hkp : keepT_P (checkT_Z (shiftOf (some 32) 2 c) (flipLROf (some 32) c) 1 c.length 2) 1 1 c.length 2 8 = [(2, 0)] := by
    show keepT_P (checkT_Z (shiftOf (some 32) 2 c) (flipLROf (some 32) c) 1 4 2) 1 1 4 2 8 = [(2, 0)]
    have hs : sigmas 1 4 2 = [1] := by decide
    unfold keepT_P
    rw [e1, hs]
    simp
  refine ⟨hkp, ?_⟩
  have hd := dihedral_chain h 2 2 (by omega) (by omega) rfl
  have hu := undone_one (order_two_acts h (parity_site c) (parity_isSymmetry h 2 0) rfl) (show (1 : Int) = 1 ∨ (1 : Int) = -1 from Or.inl rfl)
  have hloop := loop_semi (w := some 32) (B := { a := 2, k := some 1, p := some 1 }) h (S := (· < c.size)) (fun _ hs => hs) 1 2 2 (by omega) (by omega) rfl rfl rfl
    (Or.inl rfl) 1 hd hd.cyc.closed (fun _ => [flipLROf (some 32) c]) [flipLROf (some 32) c] (fun _ _ _ => rfl)
    (fun sp => by simp [sections, bitopsOf]) (fun _ => hu)
  have hv := (loop_expand hloop (fun _ hs => hs) dense_adds (row := fun x => c.size - 1 - x) (row_inj c.size) false [(8, (2, 0))] [1] rfl
    (by intro x hx; rw [List.mem_singleton.1 hx]; show 8 < 16; omega) (List.pairwise_singleton _ _)).2
  have hl : Listed (keepT_P (checkT_Z (shiftOf (some 32) 2 c) (flipLROf (some 32) c) 1 (2 * 2) 2) 1 1 (2 * 2) 2) [8] [(8, ((2 : Int), 0))] := by
    refine ⟨List.pairwise_singleton _ _, List.nodup_singleton _, fun s d => ?_⟩
    simp only [List.mem_singleton, Prod.mk.injEq]
    constructor
    · rintro ⟨rfl, rfl⟩
      exact ⟨rfl, by rw [show keepT_P (checkT_Z (shiftOf (some 32) 2 c) (flipLROf (some 32) c) 1 (2 * 2) 2) 1 1 (2 * 2) 2 8 = [(2, 0)] from hkp]; simp⟩
    · rintro ⟨rfl, hm⟩
      rw [show keepT_P (checkT_Z (shiftOf (some 32) 2 c) (flipLROf (some 32) c) 1 (2 * 2) 2) 1 1 (2 * 2) 2 8 = [(2, 0)] from hkp] at hm
      exact ⟨rfl, List.mem_singleton.1 hm⟩
  have hN := ent_norm hd (k := 1) (p := 1) (T := 2) (by omega) (Or.inl rfl) (by intro s hs; rw [List.mem_singleton.1 hs]; show 8 < 16; omega) hl
    (x := (8, (2, 0))) (by simp)
  rw [kappa_eq (T := 2) (by omega) (by omega) (by omega)] at hN
  have hs1 : sigmaOf ((2 : Int), 0) = 1 := by decide
  have hm1 : mmOf (2 * 2) ((2 : Int), 0) = -1 := by decide
  unfold weightT_P at hN
  rw [hs1, hm1] at hN
  norm_num at hN
  have hsq : normSq { a := 2, k := some 1, p := some 1 } c.length 2 0 = 2 := by
    show normSq _ 4 _ _ = _
    unfold normSq
    norm_num [show Int.sign 2 = 1 from rfl]
  have hval : ∀ t : Fin c.size, (projectDense (some 32) { a := 2, k := some 1, p := some 1 } c [(8, (2, 0))] [1]).2 (c.size - 1 - t)
      = st c.size (shiftOf (some 32) 2 c) (flipLROf (some 32) c) 2 1 1 1 8 t / (Real.sqrt 2 : ℝ) := by
    intro t
    refine (hv t t.2).trans ?_
    simp only [List.zipWith_cons_cons, List.zipWith_nil_left, List.sum_cons, List.sum_nil, add_zero, one_mul]
    rw [hsq, dif_pos t.2]
    rfl
  rw [← Fin.sum_univ_eq_sum_range (fun j => ‖(projectDense (some 32) { a := 2, k := some 1, p := some 1 } c [(8, (2, 0))] [1]).2 j‖ ^ 2),
    ← Equiv.sum_comp Fin.revPerm]
  have hrev : ∀ t : Fin c.size, ((Fin.revPerm t : Fin c.size) : ℕ) = c.size - 1 - t := by
    intro t
    rw [Fin.revPerm_apply, Fin.val_rev]; omega
  simp only [hrev, hval]
  have : ∀ t : Fin c.size, ‖st c.size (shiftOf (some 32) 2 c) (flipLROf (some 32) c) 2 1 1 1 8 t / (Real.sqrt 2 : ℝ)‖ ^ 2
      = ‖st c.size (shiftOf (some 32) 2 c) (flipLROf (some 32) c) 2 1 1 1 8 t‖ ^ 2 * (1 / 2) := by
    intro t
    rw [norm_div, div_pow, Complex.norm_real, Real.norm_eq_abs, sq_abs, Real.sq_sqrt (by norm_num)]
    ring
  simp only [this]
  rw [← Finset.sum_mul, hN]
  norm_num

/-- `get_proj` on the six-site chain of the example of C74 with three up spins: the hypotheses there are those here, momentum 1 of 6 is neither 0 nor π, and a
configuration gives two columns. -/
example : (1 : ℕ) < 6 ∧ ((1 : ℕ) = 1 ∨ 2 * 1 ≠ 6) ∧ (Spec.Chain.twoLevel 6).length ≤ 63 := ⟨by omega, Or.inl rfl, by show 6 ≤ 63; omega⟩

end Props
