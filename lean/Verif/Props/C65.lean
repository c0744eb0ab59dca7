import Verif.Proof.ChainSector
import Verif.Props.C38
import Verif.Props.C63
import Verif.Props.C64
/-!
C65: in a symmetry block of a one-dimensional basis the basis states are the representatives of the orbits, and the
matrix built for an operator that commutes with the symmetries is its restriction to the block: the matrix elements
between the normalised projections of the representatives onto the quantum numbers.

The statements are made for the basis found by visiting any list of configurations that the symmetries map among
themselves (`C65_all`, `C65_fixed_number`: those that are visited by the code); `nosymm` is the restriction on double
occupancy.
-/
namespace Props
open Spec Model Model.Chain Proof.Chain
open Spec.Chain (Fits HasFlip)

/-- What the theorems below say of a basis `l` and the function that makes the columns of the matrix. -/
theorem C65_meaning {α : Type} (size : ℕ) (ys : List Generator) (es : List ℕ) (l : List (ℕ × α))
    (column : (ℕ → Option (ℕ × ℂ)) → ℕ → Option (Option (ℕ × ℂ))) :
    BlockCorrect size ys es l column ↔ AreRepresentatives ys es (l.map (·.1)) ∧
      ∀ terms : List (ℕ → Option (ℕ × ℂ)), TermsWithin size terms → InvariantUnder (· < size) ys (operatorOf terms) →
        ∃ M, matrixOfColumns (terms.map column) l.length = some M ∧ IsRestriction size ys (l.map (·.1)) (operatorOf terms) M := Iff.rfl

section
variable (w : Option ℕ) (c : Spec.Chain) (h : Fits w c) (next : ℕ → ℕ) (nosymm : ℕ → Bool) (MAX s0 : ℕ)
  (hinc : (visited next MAX s0).Pairwise (· < ·))

include h hinc

/-- Parity blocks. -/
theorem C65_parity (yP : Generator) (hP : c.IsSymmetry c.parity yP) (p : Int) (hp : HasParity yP p)
    (hs : IsSectorOf c.size [yP] ((visited next MAX s0).filter nosymm)) :
    let l := blockBasis next nosymm (keepN (checkP (flipLROf w c) p)) MAX s0
    BlockCorrect c.size [yP] ((visited next MAX s0).filter nosymm) l (columnOf (refP (flipLROf w c)) (factorP p) l) :=
  two_matrix hp (order_two_acts h (parity_site c) hP hp.1) hinc hs _ (C63_parity w c h yP hP p hp) _ (C64_parity w c h yP hP hp.1)

/-- Inversion blocks. -/
theorem C65_inversion (hF : HasFlip c) (yZ : Generator) (hZ : c.IsSymmetry c.flip yZ) (z : Int) (hz : HasParity yZ z)
    (hs : IsSectorOf c.size [yZ] ((visited next MAX s0).filter nosymm)) :
    let l := blockBasis next nosymm (keepN (checkZ (flipAllOf w c) z)) MAX s0
    BlockCorrect c.size [yZ] ((visited next MAX s0).filter nosymm) l (columnOf (refP (flipAllOf w c)) (factorP z) l) :=
  two_matrix hz (order_two_acts h (flip_site c hF) hZ hz.1) hinc hs _ (C63_inversion w c h hF yZ hZ z hz) _ (C64_inversion w c h hF yZ hZ hz.1)

/-- Inversion of sublattice A. -/
theorem C65_sublattice_A (hf : c.fermions = false) (yA : Generator) (hA : c.IsSymmetry (c.flipOf ((c.length + 1) % 2)) yA) (zA : Int)
    (hzA : HasParity yA zA) (hs : IsSectorOf c.size [yA] ((visited next MAX s0).filter nosymm)) :
    let l := blockBasis next nosymm (keepN (checkZ (flipAOf c) zA)) MAX s0
    BlockCorrect c.size [yA] ((visited next MAX s0).filter nosymm) l (columnOf (refP (flipAOf c)) (factorP zA) l) :=
  two_matrix hzA (order_two_acts h (sub_site c _ hf) hA hzA.1) hinc hs _
    (order_two h (sub_site c _ hf) _ (subA_isSymmetry h hf 2) hA hzA) _ (order_two_ref h (sub_site c _ hf) _ (subA_isSymmetry h hf 2) hA hzA.1)

/-- Inversion of sublattice B. -/
theorem C65_sublattice_B (hf : c.fermions = false) (yB : Generator) (hB : c.IsSymmetry (c.flipOf (c.length % 2)) yB) (zB : Int)
    (hzB : HasParity yB zB) (hs : IsSectorOf c.size [yB] ((visited next MAX s0).filter nosymm)) :
    let l := blockBasis next nosymm (keepN (checkZ (flipBOf c) zB)) MAX s0
    BlockCorrect c.size [yB] ((visited next MAX s0).filter nosymm) l (columnOf (refP (flipBOf c)) (factorP zB) l) :=
  two_matrix hzB (order_two_acts h (sub_site c _ hf) hB hzB.1) hinc hs _
    (order_two h (sub_site c _ hf) _ (subB_isSymmetry h hf 2) hB hzB) _ (order_two_ref h (sub_site c _ hf) _ (subB_isSymmetry h hf 2) hB hzB.1)

/-- Blocks of the product of reflection and inversion, for particles that are not fermions.  Missing: fermions with
spin, for which the statement is false (`C65_fails_product`). -/
theorem C65_product_partial (hf : c.fermions = false) (yP yZ : Generator) (hP : c.IsSymmetry c.parity yP) (hZ : c.IsSymmetry c.flip yZ)
    (hpP : yP.per = 2) (hpZ : yZ.per = 2) (q p : Int) (hp : HasParity (both yZ yP q) p)
    (hs : IsSectorOf c.size [both yZ yP q] ((visited next MAX s0).filter nosymm)) :
    let l := blockBasis next nosymm (keepN (checkPZ (flipLROf w c) (flipAllOf w c) p)) MAX s0
    BlockCorrect c.size [both yZ yP q] ((visited next MAX s0).filter nosymm) l
      (columnOf (refPZ (flipLROf w c) (flipAllOf w c)) (factorP p) l) := by
  have hF : HasFlip c := by cases c <;> first | trivial | cases hf
  have ha : Acts (· < c.size) [yP, yZ] := pair_acts h (hpP ▸ parity_site c) (hpZ ▸ flip_site c hF) hP hZ (Proof.Chain.parity_flip c)
  exact two_matrix hp (both_acts ha hpZ hpP q) hinc hs _ (C63_product w c h hF yP yZ hP hZ hpP hpZ q p hp) _
    (C64_product_partial w c h hf yP yZ hP hZ hpP hpZ q)

/-- Blocks of reflection and inversion. -/
theorem C65_parity_inversion (hF : HasFlip c) (yP yZ : Generator) (hP : c.IsSymmetry c.parity yP) (hZ : c.IsSymmetry c.flip yZ)
    (p z : Int) (hp : HasParity yP p) (hz : HasParity yZ z) (hs : IsSectorOf c.size [yZ, yP] ((visited next MAX s0).filter nosymm)) :
    let l := blockBasis next nosymm (keepN (checkP_Z (flipLROf w c) (flipAllOf w c) p z)) MAX s0
    BlockCorrect c.size [yZ, yP] ((visited next MAX s0).filter nosymm) l
      (columnOf (refP_Z (flipLROf w c) (flipAllOf w c)) (factorP_Z p z) l) :=
  pair_matrix hz hp (pair_acts h (hz.1 ▸ flip_site c hF) (hp.1 ▸ parity_site c) hZ hP (Proof.Chain.parity_flip c).symm) hinc hs _
    (C63_parity_inversion w c h hF yP yZ hP hZ p z hp hz) _ Ref.g Ref.l (C64_parity_inversion w c h hF yP yZ hP hZ hp.1 hz.1) _
    (fun b Ni Ns => by unfold factorP_Z; ring)

/-- Blocks of both sublattice inversions. -/
theorem C65_sublattices (hf : c.fermions = false) (yA yB : Generator)
    (hA : c.IsSymmetry (c.flipOf ((c.length + 1) % 2)) yA) (hB : c.IsSymmetry (c.flipOf (c.length % 2)) yB)
    (zA zB : Int) (hzA : HasParity yA zA) (hzB : HasParity yB zB) (hs : IsSectorOf c.size [yA, yB] ((visited next MAX s0).filter nosymm)) :
    let l := blockBasis next nosymm (keepN (checkZA_ZB (flipAOf c) (flipBOf c) (flipAllOf w c) zA zB)) MAX s0
    BlockCorrect c.size [yA, yB] ((visited next MAX s0).filter nosymm) l
      (columnOf (refZA_ZB (flipAOf c) (flipBOf c) (flipAllOf w c)) (factorP_Z zA zB) l) :=
  pair_matrix hzA hzB (pair_acts h (by rw [hzA.1]; exact sub_site c _ hf) (by rw [hzB.1]; exact sub_site c _ hf) hA hB (sub_sub c _ _ hf)) hinc hs _
    (C63_sublattices w c h hf yA yB hA hB zA zB hzA hzB) _ Ref.l Ref.g (C64_sublattices w c h hf yA yB hA hB hzA.1 hzB.1) _
    (fun b Ni Ns => by unfold factorP_Z; ring)

/-- Momentum blocks, `L = T n`.  A real data type is accepted for the momenta 0 and `n/2` only. -/
theorem C65_momentum (T n k : ℕ) (hT : 0 < T) (hn : 0 < n) (hL : c.length = T * n) (yT : Generator) (hy : c.IsSymmetry (c.shift T) yT)
    (hp : yT.per = n) (hq : yT.q = k) (hs : IsSectorOf c.size [yT] ((visited next MAX s0).filter nosymm))
    (isReal : Bool) (hreal : isReal = true → 2 * k % n = 0) :
    let l := blockBasis next nosymm (keepN (checkT (shiftOf w T c) k c.length T)) MAX s0
    BlockCorrect c.size [yT] ((visited next MAX s0).filter nosymm) l
      (columnT isReal k c.length T (refT (shiftOf w T c) c.length T) (factorT isReal k c.length T) l) := by
  have := t_matrix hT hn hp hq (shift_acts h T n hT hn hL hy hp) hinc hs (checkT (shiftOf w T c) k c.length T) (fun s hs' => by
    obtain ⟨h1, h2⟩ := C38_momentum w c h T n k hT hn hL yT hy hp hq s hs'
    exact ⟨h1, fun h0 => by obtain ⟨r, e1, e2, _, _, e3⟩ := h2 h0; exact ⟨r, e1, e2, e3⟩⟩)
    (refT (shiftOf w T c) c.length T) (C64_momentum w c h T n hT hn hL yT hy hp) isReal (fun e => by
      rw [Nat.mul_comm 2 T, Nat.mul_assoc, Nat.mul_mod_mul_left, hreal e, Nat.mul_zero])
  rw [← hL] at this
  exact this

/-- Blocks of momentum and inversion. -/
theorem C65_momentum_inversion (hF : HasFlip c) (T n k : ℕ) (hT : 0 < T) (hn : 0 < n) (hL : c.length = T * n) (yT yZ : Generator)
    (hy : c.IsSymmetry (c.shift T) yT) (hp : yT.per = n) (hq : yT.q = k) (hZ : c.IsSymmetry c.flip yZ) (z : Int) (hz : HasParity yZ z)
    (hs : IsSectorOf c.size [yT, yZ] ((visited next MAX s0).filter nosymm)) (isReal : Bool) (hreal : isReal = true → 2 * k % n = 0) :
    let l := blockBasis next nosymm (keepT_Z (shiftOf w T c) (flipAllOf w c) z k c.length T) MAX s0
    BlockCorrect c.size [yT, yZ] ((visited next MAX s0).filter nosymm) l
      (columnT isReal k c.length T (refT_Z (shiftOf w T c) (flipAllOf w c) c.length T)
        (factorT_Z isReal (weightT_Z z k c.length T) z k c.length T) l) := by
  have ha : Acts (· < c.size) [yT, yZ] := pair_acts h (hp ▸ shift_site c T n hT hn hL) (hz.1 ▸ flip_site c hF) hy hZ
    (shift_flip c T (by rw [hL]; exact Nat.le_mul_of_pos_right _ hn))
  have := tz_matrix hT hn hp hq hz ha hinc hs (keepT_Z (shiftOf w T c) (flipAllOf w c) z k c.length T) (weightT_Z z k c.length T) (fun s hs' => by
    obtain ⟨h1, h2⟩ := C63_momentum_inversion w c h hF T n k hT hn hL yT yZ hy hp hq hZ z hz s hs'
    exact ⟨h1, fun Nm h0 => (h2 Nm h0).2.2.2⟩)
    (refT_Z (shiftOf w T c) (flipAllOf w c) c.length T) (C64_momentum_inversion w c h hF T n hT hn hL yT yZ hy hp hZ hz.1) isReal (fun e => by
      rw [Nat.mul_comm 2 T, Nat.mul_assoc, Nat.mul_mod_mul_left, hreal e, Nat.mul_zero])
  rw [← hL] at this
  exact this

/-- Blocks of momentum and the inversion of sublattice A. -/
theorem C65_momentum_sublattice_A (hf : c.fermions = false) (T n k : ℕ) (hT : 0 < T) (heven : T % 2 = 0) (hn : 0 < n) (hL : c.length = T * n)
    (yT yA : Generator) (hy : c.IsSymmetry (c.shift T) yT) (hp : yT.per = n) (hq : yT.q = k)
    (hA : c.IsSymmetry (c.flipOf ((c.length + 1) % 2)) yA) (z : Int) (hz : HasParity yA z)
    (hs : IsSectorOf c.size [yT, yA] ((visited next MAX s0).filter nosymm)) (isReal : Bool) (hreal : isReal = true → 2 * k % n = 0) :
    let l := blockBasis next nosymm (keepT_ZA (shiftOf w T c) (flipAOf c) z k c.length T) MAX s0
    BlockCorrect c.size [yT, yA] ((visited next MAX s0).filter nosymm) l
      (columnT isReal k c.length T (refT_Z (shiftOf w T c) (flipAOf c) c.length T)
        (factorT_Z isReal (weightT_ZA z k c.length T) z k c.length T) l) := by
  have ha : Acts (· < c.size) [yT, yA] := pair_acts h (hp ▸ shift_site c T n hT hn hL) (by rw [hz.1]; exact sub_site c _ hf) hy hA
    (shift_sub c T n _ hf heven hn hL)
  have := tz_matrix hT hn hp hq hz ha hinc hs (keepT_ZA (shiftOf w T c) (flipAOf c) z k c.length T) (weightT_ZA z k c.length T) (fun s hs' => by
    obtain ⟨h1, h2⟩ := C63_momentum_sublattice_A w c h hf T n k hT heven hn hL yT yA hy hp hq hA z hz s hs'
    exact ⟨h1, fun Nm h0 => (h2 Nm h0).2.2.2⟩)
    (refT_Z (shiftOf w T c) (flipAOf c) c.length T)
    (momentum_two_ref h (sub_site c _ hf) T n hT hn hL (shift_sub c T n _ hf heven hn hL) _ (subA_isSymmetry h hf 2) hy hp hA hz.1)
    isReal (fun e => by rw [Nat.mul_comm 2 T, Nat.mul_assoc, Nat.mul_mod_mul_left, hreal e, Nat.mul_zero])
  rw [← hL] at this
  exact this

/-- Blocks of momentum and the inversion of sublattice B. -/
theorem C65_momentum_sublattice_B (hf : c.fermions = false) (T n k : ℕ) (hT : 0 < T) (heven : T % 2 = 0) (hn : 0 < n) (hL : c.length = T * n)
    (yT yB : Generator) (hy : c.IsSymmetry (c.shift T) yT) (hp : yT.per = n) (hq : yT.q = k)
    (hB : c.IsSymmetry (c.flipOf (c.length % 2)) yB) (z : Int) (hz : HasParity yB z)
    (hs : IsSectorOf c.size [yT, yB] ((visited next MAX s0).filter nosymm)) (isReal : Bool) (hreal : isReal = true → 2 * k % n = 0) :
    let l := blockBasis next nosymm (keepT_ZA (shiftOf w T c) (flipBOf c) z k c.length T) MAX s0
    BlockCorrect c.size [yT, yB] ((visited next MAX s0).filter nosymm) l
      (columnT isReal k c.length T (refT_Z (shiftOf w T c) (flipBOf c) c.length T)
        (factorT_Z isReal (weightT_ZA z k c.length T) z k c.length T) l) := by
  have ha : Acts (· < c.size) [yT, yB] := pair_acts h (hp ▸ shift_site c T n hT hn hL) (by rw [hz.1]; exact sub_site c _ hf) hy hB
    (shift_sub c T n _ hf heven hn hL)
  have := tz_matrix hT hn hp hq hz ha hinc hs (keepT_ZA (shiftOf w T c) (flipBOf c) z k c.length T) (weightT_ZA z k c.length T) (fun s hs' => by
    obtain ⟨h1, h2⟩ := C63_momentum_sublattice_B w c h hf T n k hT heven hn hL yT yB hy hp hq hB z hz s hs'
    exact ⟨h1, fun Nm h0 => (h2 Nm h0).2.2.2⟩)
    (refT_Z (shiftOf w T c) (flipBOf c) c.length T)
    (momentum_two_ref h (sub_site c _ hf) T n hT hn hL (shift_sub c T n _ hf heven hn hL) _ (subB_isSymmetry h hf 2) hy hp hB hz.1)
    isReal (fun e => by rw [Nat.mul_comm 2 T, Nat.mul_assoc, Nat.mul_mod_mul_left, hreal e, Nat.mul_zero])
  rw [← hL] at this
  exact this

end

/-- For a real data type and any other momentum, an error is reported (for every operator string and state). -/
theorem C65_real_refused {α : Type} (T n k : ℕ) (hT : 0 < T) (hk : 2 * k % n ≠ 0) (ref : ℕ → Ref) (factor : Ref → α → α → ℂ)
    (l : List (ℕ × α)) (op : ℕ → Option (ℕ × ℂ)) (i : ℕ) : columnT true k (T * n) T ref factor l op i = none := by
  unfold columnT
  rw [if_pos]
  refine ⟨rfl, ?_⟩
  rw [Nat.mul_comm 2 T, Nat.mul_assoc, Nat.mul_mod_mul_left]
  intro e
  rcases Nat.mul_eq_zero.1 e with e | e <;> omega

/-- Without particle conservation, all configurations are visited, in increasing order, and every symmetry of the
chain maps them among themselves. -/
theorem C65_all (size : ℕ) (ys : List Generator) (h : ∀ y ∈ ys, ∀ s < size, y.img s < size) :
    (visited (fun s => s + 1) size 0).Pairwise (· < ·) ∧
    (visited (fun s => s + 1) size 0).filter (fun _ => true) = List.range size ∧ IsSectorOf size ys (List.range size) := by
  refine ⟨?_, full_visited size, ⟨List.pairwise_lt_range, fun s hs => List.mem_range.1 hs, fun y hy s hs =>
    List.mem_range.2 (h y hy s (List.mem_range.1 hs))⟩⟩
  rw [visited_inc, ← List.range_eq_range']
  exact List.pairwise_lt_range

/-- With a fixed number `k` of particles on a chain of spins 1/2, hard-core bosons or spinless fermions, the configurations
with `k` particles are visited, in increasing order; translations and the reflection map them among themselves, the inversion
does if half of the sites are occupied. -/
theorem C65_fixed_number (w : ℕ) (c : Spec.Chain) (hc : c = .twoLevel c.length ∨ c = .spinless c.length) (hw : c.length ≤ w) (k : ℕ)
    (hk : k ≤ c.length) (ys : List Generator)
    (hy : ∀ y ∈ ys, ∃ map, c.IsSymmetry map y ∧ ((∃ T, T ≤ c.length ∧ map = c.shift T) ∨ map = c.parity ∨
      (c = .twoLevel c.length ∧ 2 * k = c.length ∧ map = c.flip))) :
    (visited (nextStatePcon w) (c.length.choose k) (s0Pcon k)).Pairwise (· < ·) ∧
    (visited (nextStatePcon w) (c.length.choose k) (s0Pcon k)).filter (fun _ => true) = sector c.length k ∧
    IsSectorOf c.size ys (sector c.length k) := by
  rw [pcon_visited w _ k hw hk, List.filter_true]
  exact ⟨Proof.HcbBasis.sector_increasing _ _, rfl, pcon_sector hc k hy⟩

/-! ### the hypotheses are met -/

/-- Six spins, unit cell of two sites, momentum 1 and inversion -1, three spins up: the operations of the code satisfy all hypotheses. -/
example :
    let c : Spec.Chain := .twoLevel 6
    let yT := gen (shiftOf (some 32) 2 c) 3 1
    let yZ := gen (flipAllOf (some 32) c) 2 1
    Fits (some 32) c ∧ c.IsSymmetry (c.shift 2) yT ∧ c.IsSymmetry c.flip yZ ∧ HasParity yZ (-1) ∧
    (visited (nextStatePcon 32) (Nat.choose 6 3) (s0Pcon 3)).Pairwise (· < ·) ∧
    IsSectorOf c.size [yT, yZ] ((visited (nextStatePcon 32) (Nat.choose 6 3) (s0Pcon 3)).filter fun _ => true) := by
  have hF : Fits (some 32) (.twoLevel 6) := ⟨by omega, fun v hv => by cases hv; omega⟩
  have hT := shift_isSymmetry hF 2 (by omega) (show 2 ≤ 6 by omega) 3 1
  have hZ := flip_isSymmetry hF trivial 2 1
  have := C65_fixed_number 32 (.twoLevel 6) (Or.inl rfl) (show 6 ≤ 32 by omega) 3 (show 3 ≤ 6 by omega)
    [gen (shiftOf (some 32) 2 (.twoLevel 6)) 3 1, gen (flipAllOf (some 32) (.twoLevel 6)) 2 1] (by
      intro y hy
      rcases List.mem_cons.1 hy with rfl | hy
      · exact ⟨_, hT, Or.inl ⟨2, (show 2 ≤ 6 by omega), rfl⟩⟩
      · rw [List.mem_singleton.1 hy]
        exact ⟨_, hZ, Or.inr (Or.inr ⟨rfl, rfl, rfl⟩)⟩)
  refine ⟨hF, hT, hZ, ⟨rfl, Or.inr ⟨rfl, rfl⟩⟩, this.1, ?_⟩
  rw [show Nat.choose 6 3 = ((Spec.Chain.twoLevel 6).length).choose 3 from rfl, this.2.1]
  exact this.2.2

/-- The reflection block of three sites with even parity has six states, with the norms of their projections. -/
example : blockBasis (fun s => s + 1) (fun _ => true) (keepN (checkP (flipLROf none (.twoLevel 3)) 1)) 8 0
    = [(7, 4), (6, 2), (5, 4), (4, 2), (2, 4), (0, 4)] := by decide +kernel

/-! ### defect: reflection times exchange of the spins -/

/-- The term that exchanges the configurations `0011` and `1100`. -/
noncomputable def flipPair (s : ℕ) : Option (ℕ × ℂ) := if s = 3 then some (12, 1) else if s = 12 then some (3, 1) else some (s, 0)

theorem flipPair_operator (t s : ℕ) : operatorOf [flipPair] t s = if (s = 3 ∧ t = 12) ∨ (s = 12 ∧ t = 3) then 1 else 0 := by
  unfold operatorOf flipPair
  by_cases h3 : s = 3
  · subst h3
    by_cases ht : t = 12
    · subst ht; simp
    · simp [ht, fun e => ht (Eq.symm e)]
      omega
  · by_cases h12 : s = 12
    · subst h12
      by_cases ht : t = 3
      · subst ht; simp
      · simp [ht, fun e => ht (Eq.symm e)]
        omega
    · simp [h3, h12]

/-- All columns of the term are diagonal if the representatives are found. -/
theorem flipPair_column (ref : ℕ → Ref) (l : List (ℕ × Int)) (href : ∀ x ∈ l, x.1 ≠ 3 ∧ (ref (if x.1 = 12 then 3 else x.1)).r = x.1)
    (i : ℕ) (s : ℕ) (d : Int) (hi : l[i]? = some (s, d)) :
    columnOf ref (factorP 1) l flipPair i
      = some (some (i, (if s = 12 then 1 else 0) * factorP 1 (ref (if s = 12 then 3 else s)) d d)) := by
  obtain ⟨h3, hr⟩ := href _ (List.mem_of_getElem? hi)
  simp only at h3 hr
  have hf : flipPair s = some (if s = 12 then 3 else s, if s = 12 then 1 else 0) := by
    unfold flipPair
    rw [if_neg h3]
    split_ifs <;> rfl
  unfold columnOf
  simp only [hi, hf]
  rw [if_neg (by rw [hr]; simp)]
  simp only [hi]

theorem flipPair_entry (ref : ℕ → Ref) (l : List (ℕ × Int)) (href : ∀ x ∈ l, x.1 ≠ 3 ∧ (ref (if x.1 = 12 then 3 else x.1)).r = x.1)
    (i : ℕ) (hi : l[i]? = some (12, 2)) (M : ℕ → ℕ → ℂ) (hM : matrixOfColumns ([flipPair].map (columnOf ref (factorP 1) l)) l.length = some M) :
    M i i = (ref 3).sign := by
  obtain ⟨M', h1, h2⟩ := Proof.Assembly.matrixOfColumns_spec ([flipPair].map (columnOf ref (factorP 1) l)) l.length (by
    intro f hf j hj
    rw [List.map_singleton, List.mem_singleton] at hf
    subst hf
    obtain ⟨⟨s, d⟩, e⟩ : ∃ x, l[j]? = some x := ⟨_, List.getElem?_eq_getElem hj⟩
    rw [flipPair_column ref l href j s d e]
    rfl)
  rw [hM, Option.some.injEq] at h1
  subst h1
  rw [h2 i i (List.getElem?_eq_some_iff.1 hi).1]
  rw [List.map_singleton, List.map_singleton, List.sum_singleton]
  unfold Proof.Assembly.entry
  rw [flipPair_column ref l href i 12 2 hi]
  simp [factorP]

/-- Two sites with spinful fermions: in the block of reflection times spin exchange with eigenvalue 1, the matrix built for
the invariant operator that exchanges `0011` and `1100` is not its restriction: the diagonal element of the state
`(|1100⟩ - |0011⟩)/√2` comes out as `+1` and is `-1`. -/
theorem C65_fails_product :
    let c : Spec.Chain := .spinful 2
    let y := both (gen (flipAllOf (some 32) c) 2 0) (gen (flipLROf (some 32) c) 2 0) 0
    let l := blockBasis (fun s => s + 1) (fun _ => true) (keepN (checkPZ (flipLROf (some 32) c) (flipAllOf (some 32) c) 1)) 16 0
    TermsWithin 16 [flipPair] ∧ InvariantUnder (· < 16) [y] (operatorOf [flipPair]) ∧
    ¬ BlockCorrect 16 [y] (List.range 16) l (columnOf (refPZ (flipLROf (some 32) c) (flipAllOf (some 32) c)) (factorP 1) l) := by
  intro c y l
  have hl : l = [(15, 4), (14, 2), (13, 2), (12, 2), (10, 2), (8, 2), (4, 2), (0, 4)] := by decide +kernel
  have himg : ∀ s < 16, (y.img s = 3 ↔ s = 12) ∧ (y.img s = 12 ↔ s = 3) ∧ y.img s < 16 := by decide +kernel
  have hsgn : y.sgn 3 = -1 ∧ y.sgn 12 = -1 := by decide +kernel
  have hT : TermsWithin 16 [flipPair] := by
    intro f hf s hs
    rw [List.mem_singleton.1 hf]
    unfold flipPair
    split_ifs
    · exact ⟨12, by omega, 1, rfl⟩
    · exact ⟨3, by omega, 1, rfl⟩
    · exact ⟨s, hs, 0, rfl⟩
  have hI : InvariantUnder (· < 16) [y] (operatorOf [flipPair]) := by
    intro z hz s t hs ht
    rw [List.mem_singleton.1 hz, flipPair_operator, flipPair_operator]
    simp only [(himg s hs).1, (himg s hs).2.1, (himg t ht).1, (himg t ht).2.1]
    by_cases h1 : s = 3 ∧ t = 12
    · obtain ⟨rfl, rfl⟩ := h1
      simp [hsgn.1, hsgn.2]
    · by_cases h2 : s = 12 ∧ t = 3
      · obtain ⟨rfl, rfl⟩ := h2
        simp [hsgn.1, hsgn.2]
      · rw [if_neg (by tauto), if_neg (by tauto)]
        simp
  refine ⟨hT, hI, fun hB => ?_⟩
  have hF : Fits (some 32) c := ⟨by omega, fun v hv => by cases hv; omega⟩
  have hP := parity_isSymmetry hF 2 0
  have hZ := flip_isSymmetry hF trivial 2 0
  have ha : Acts (· < c.size) [gen (flipLROf (some 32) c) 2 0, gen (flipAllOf (some 32) c) 2 0] :=
    pair_acts hF (parity_site c) (flip_site c trivial) hP hZ (Proof.Chain.parity_flip c)
  have hy : Acts (· < 16) [y] := both_acts ha rfl rfl 0
  let comp : BitOp := fun s => (y.img s, y.sgn s)
  have hgen : gen comp 2 0 = y := rfl
  obtain ⟨_, hvis, hsec⟩ := C65_all 16 [y] (fun z hz s hs => by rw [List.mem_singleton.1 hz]; exact (himg s hs).2.2)
  obtain ⟨_, hcorrect⟩ := two_matrix (nosymm := fun _ => true) (p := 1) ⟨rfl, Or.inl ⟨rfl, rfl⟩⟩ hy (C65_all 16 [y] (fun z hz s hs => by
      rw [List.mem_singleton.1 hz]; exact (himg s hs).2.2)).1 (by rw [hvis]; exact hsec) _
    (C63_product (some 32) c hF trivial _ _ hP hZ rfl rfl 0 1 ⟨rfl, Or.inl ⟨rfl, rfl⟩⟩) (refP comp) (fun s hs => ref_two comp 0 hy s hs)
  obtain ⟨M, hM, hR⟩ := hcorrect [flipPair] hT hI
  obtain ⟨M', hM', hR'⟩ := hB.2 [flipPair] hT hI
  change matrixOfColumns ([flipPair].map (columnOf (refP comp) (factorP 1) l)) l.length = some M at hM
  change IsRestriction 16 [y] (l.map (·.1)) (operatorOf [flipPair]) M at hR
  have e1 := flipPair_entry _ l (by rw [hl]; decide +kernel) 3 (by rw [hl]; rfl) M hM
  have e2 := flipPair_entry _ l (by rw [hl]; decide +kernel) 3 (by rw [hl]; rfl) M' hM'
  have h3 : 3 < (l.map (·.1)).length := by rw [hl]; decide
  have e3 := (hR ⟨3, h3⟩ ⟨3, h3⟩).trans (hR' ⟨3, h3⟩ ⟨3, h3⟩).symm
  simp only at e3
  rw [e1, e2] at e3
  have s1 : (refP comp 3).sign = -1 := by decide +kernel
  have s2 : (refPZ (flipLROf (some 32) c) (flipAllOf (some 32) c) 3).sign = 1 := by decide +kernel
  rw [s1, s2] at e3
  norm_num at e3

end Props
