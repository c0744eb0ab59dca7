import Verif.Props.C31

/-!
C30: tensor bases give Kronecker products.
-/

namespace Props
open Model.Tensor Spec.Kronecker Proof.Tensor

/-- `Op` of this basis for a string gives `J` times the matrix `m`. -/
def Represents (b : Basis) (opstr : List Char) (indx : List ℕ) (m : ℕ → ℕ → ℂ) : Prop :=
  ∀ J, ∃ l, b.op opstr indx J = some l ∧ Inside b.Ns l ∧ ∀ r < b.Ns, ∀ c < b.Ns, entry l r c = J * m r c

/-- A factor of a tensor product: basis, string, indices and the matrix they stand for. -/
structure Factor where
  basis : Basis
  opstr : List Char
  indx : List ℕ
  mat : ℕ → ℕ → ℂ

/-- A factor is sound: its string has no `|` and one index for every symbol, and its basis gives the matrix. -/
structure Factor.Sound (f : Factor) : Prop where
  bar : '|' ∉ f.opstr
  indices : f.indx.length = f.opstr.length
  represents : Represents f.basis f.opstr f.indx f.mat

/-- `left|...|right` -/
def joined : List (List Char) → List Char
  | [] => []
  | [o] => o
  | o :: o' :: os => o ++ '|' :: joined (o' :: os)

theorem joined_length : ∀ os : List (List Char), (∀ o ∈ os, '|' ∉ o) →
    (joined os).length - (joined os).count '|' = (os.map List.length).sum ∧ (joined os).count '|' ≤ (joined os).length
  | [], _ => by simp [joined]
  | [o], h => by simp [joined, List.count_eq_zero.mpr (h o (by simp))]
  | o :: o' :: os, h => by
    obtain ⟨h1, h2⟩ := joined_length (o' :: os) fun x hx => h x (List.mem_cons_of_mem _ hx)
    have hc := List.count_eq_zero.mpr (h o List.mem_cons_self)
    rw [joined, List.count_append, hc, List.count_cons_self, List.length_append, List.length_cons, List.map_cons, List.sum_cons, ← h1]
    omega

theorem many_Ns : ∀ (b : Basis) (bs : List Basis), (many b bs).Ns = ((b :: bs).map Basis.Ns).prod
  | b, [] => by simp [many]
  | b, c :: bs => by
    rw [many, List.map_cons, List.prod_cons, ← many_Ns c bs]
    rfl

/-- The string `left|...|right` in a tensor basis with any number of factors gives `J` times the Kronecker product of the matrices. -/
theorem C30_op (f : Factor) (fs : List Factor) (h : ∀ g ∈ f :: fs, g.Sound) (J : ℂ) :
    ∃ l, (many f.basis (fs.map Factor.basis)).op (joined ((f :: fs).map Factor.opstr)) (((f :: fs).map Factor.indx).flatten) J = some l ∧
      Inside ((f :: fs).map fun g => g.basis.Ns).prod l ∧
      ∀ rs cs : List ℕ, List.Forall₂ (fun r n => r < n) rs ((f :: fs).map fun g => g.basis.Ns) →
        List.Forall₂ (fun c n => c < n) cs ((f :: fs).map fun g => g.basis.Ns) →
        entry l (place ((f :: fs).map fun g => g.basis.Ns) rs) (place ((f :: fs).map fun g => g.basis.Ns) cs) =
          J * kron ((f :: fs).map Factor.mat) rs cs := by
  induction fs generalizing f J with
  | nil =>
    obtain ⟨l, h1, h2, h3⟩ := (h f (by simp)).represents J
    refine ⟨l, by simpa [many, joined] using h1, by simpa using h2, fun rs cs hr hc => ?_⟩
    simp only [List.map_cons, List.map_nil] at hr hc ⊢
    obtain ⟨r, rs, hr1, hr2, rfl⟩ := List.forall₂_cons_right_iff.mp hr
    obtain ⟨c, cs, hc1, hc2, rfl⟩ := List.forall₂_cons_right_iff.mp hc
    obtain rfl := List.forall₂_nil_right_iff.mp hr2
    obtain rfl := List.forall₂_nil_right_iff.mp hc2
    simpa [place, kron] using h3 r hr1 c hc1
  | cons g fs ih =>
    have hf := h f List.mem_cons_self
    have hg : ∀ k ∈ g :: fs, k.Sound := fun k hk => h k (List.mem_cons_of_mem _ hk)
    have hN : (many g.basis (fs.map Factor.basis)).Ns = ((g :: fs).map fun k => k.basis.Ns).prod := by
      rw [many_Ns, ← List.map_cons, List.map_map]
      rfl
    have hlen : (((g :: fs).map Factor.indx).flatten).length =
        (joined ((g :: fs).map Factor.opstr)).length - (joined ((g :: fs).map Factor.opstr)).count '|' := by
      rw [(joined_length _ (by
        intro o ho
        obtain ⟨k, hk, rfl⟩ := List.mem_map.mp ho
        exact (hg k hk).bar)).1, List.length_flatten, List.map_map, List.map_map]
      refine congrArg List.sum (List.map_congr_left fun k hk => ?_)
      exact (hg k hk).indices
    have hsplit := op_split f.basis (many g.basis (fs.map Factor.basis)) f.opstr (joined ((g :: fs).map Factor.opstr)) f.indx
      (((g :: fs).map Factor.indx).flatten) J hf.bar hf.indices hlen
    obtain ⟨l, l1, l2, l3⟩ := hf.represents (if f.basis.Ns < (many g.basis (fs.map Factor.basis)).Ns then J else 1)
    obtain ⟨r, r1, r2, r3⟩ := ih g hg (if f.basis.Ns < (many g.basis (fs.map Factor.basis)).Ns then 1 else J)
    rw [l1, Option.bind_some, r1, Option.map_some] at hsplit
    rw [← hN] at r2
    obtain ⟨e1, e2⟩ := op_entries (left := f.basis) (right := many g.basis (fs.map Factor.basis)) l2 r2
    refine ⟨_, hsplit, ?_, fun rs cs hr hc => ?_⟩
    · rw [List.map_cons, List.prod_cons, ← hN]
      exact e1
    · rw [List.map_cons] at hr hc
      obtain ⟨x, rs, hr1, hr2, rfl⟩ := List.forall₂_cons_right_iff.mp hr
      obtain ⟨y, cs, hc1, hc2, rfl⟩ := List.forall₂_cons_right_iff.mp hc
      have hlt : ∀ {is ds : List ℕ}, List.Forall₂ (fun r n => r < n) is ds → place ds is < ds.prod := by
        intro is ds hh
        induction hh with
        | nil => simp [place]
        | @cons i d is ds hi _ ihh =>
          rw [place, List.prod_cons]
          calc i * ds.prod + place ds is < i * ds.prod + ds.prod := by omega
            _ = (i + 1) * ds.prod := by ring
            _ ≤ d * ds.prod := Nat.mul_le_mul_right _ hi
      have := e2 x y (place ((g :: fs).map fun k => k.basis.Ns) rs) (place ((g :: fs).map fun k => k.basis.Ns) cs)
        (by rw [hN]; exact hlt hr2) (by rw [hN]; exact hlt hc2)
      rw [List.map_cons, place, place, ← hN]
      push_cast
      rw [this, l3 x hr1 y hc1, r3 rs cs hr2 hc2]
      have hk : kron (List.map Factor.mat (f :: g :: fs)) (x :: rs) (y :: cs) = f.mat x y * kron (List.map Factor.mat (g :: fs)) rs cs := rfl
      rw [hk]
      generalize kron (List.map Factor.mat (g :: fs)) rs cs = q
      split_ifs <;> ring

/-- `index` of a product state is its place in the Kronecker product. -/
theorem C30_index (bs : List Basis) : ∀ (b : Basis) (states rows : List ℕ),
    List.Forall₂ (fun sr c => Basis.index c [sr.1] = some (sr.2 : ℤ)) (states.zip rows) (b :: bs) → states.length = rows.length →
    (many b bs).index states = some (place ((b :: bs).map Basis.Ns) rows : ℤ) := by
  induction bs with
  | nil =>
    intro b states rows h hlen
    obtain ⟨p, ps, h1, h2, e⟩ := List.forall₂_cons_right_iff.mp h
    obtain rfl := List.forall₂_nil_right_iff.mp h2
    rcases states with _ | ⟨s, states⟩
    · simp at e
    rcases rows with _ | ⟨r, rows⟩
    · simp at e
    rw [List.zip_cons_cons] at e
    obtain ⟨rfl, e'⟩ := List.cons.inj e
    clear e
    rw [List.zip_eq_nil_iff] at e'
    have e := e'
    have hs : states = [] := by
      rcases e with e | e
      · exact e
      · subst e; simpa using hlen
    subst hs
    have hr : rows = [] := by simpa using hlen.symm
    subst hr
    simp only [many, List.map_cons, List.map_nil, place, List.prod_nil, mul_one, add_zero]
    exact h1
  | cons c bs ih =>
    intro b states rows h hlen
    obtain ⟨p, ps, h1, h2, e⟩ := List.forall₂_cons_right_iff.mp h
    rcases states with _ | ⟨s, states⟩
    · simp at e
    rcases rows with _ | ⟨r, rows⟩
    · simp at e
    rw [List.zip_cons_cons] at e
    obtain ⟨rfl, rfl⟩ := List.cons.inj e
    have hlen' : states.length = rows.length := by simpa using hlen
    have := ih c states rows h2 hlen'
    rcases states with _ | ⟨t, states⟩
    · simp at h2
    simp only [many, two, index]
    rw [h1, Option.bind_some, this, Option.map_some, many_Ns, List.map_cons (f := Basis.Ns) (a := b), place]
    push_cast
    congr 1
    ring

/-! ### Defects -/

/-- A tensor basis as left factor is accepted by the constructor, but then no operator and no index can be computed. -/
theorem C30_fails_nested (a b c : Basis) (opstr : List Char) (indx : List ℕ) (J : ℂ) (states : List ℕ) :
    (two (two a b) c).op opstr indx J = none ∧ (two (two a b) c).index states = none := by
  constructor
  · have hleft : ∀ x J', op a b (opstr.take (opstr.idxOf '|')) x J' = none := by
      intro x J'
      have : '|' ∉ opstr.take (opstr.idxOf '|') := by
        intro hm
        rw [List.mem_take_iff_getElem] at hm
        obtain ⟨i, hi, e⟩ := hm
        have h2 : i < opstr.idxOf '|' := by omega
        have h3 := List.not_of_lt_findIdx (p := (· == '|')) h2
        simp [e] at h3
      unfold op
      split
      · rfl
      · rfl
    change op (two a b) c opstr indx J = none
    unfold op
    split
    · rfl
    · split
      · rfl
      · dsimp only
        change (op a b _ _ _).bind _ = none
        rw [hleft, Option.bind_none]
  · rcases states with _ | ⟨s, _ | ⟨t, states⟩⟩ <;> rfl

/-- The index of a level above the cutoff is not refused: it is the index of another product state. -/
theorem C30_fails_index : (two (ho 1) (ho 1)).index [0, 2] = some 2 ∧ (two (ho 1) (ho 1)).index [1, 0] = some 2 := by
  constructor <;> rfl

/-! ### Non-vacuity -/

/-- A factor for the oscillator. -/
theorem ho_sound (Np : ℕ) (opstr : List Char) (X : Spec.Oscillator.Vec →ₗ[ℂ] Spec.Oscillator.Vec)
    (hX : Spec.Oscillator.string opstr = some X) (hb : '|' ∉ opstr)
    (hroom : ∀ w, width (Np + 1) = some w → Np + opstr.length < 2 ^ (w - 1)) :
    (Factor.mk (ho Np) opstr (List.replicate opstr.length 0) (Spec.Oscillator.element X)).Sound := by
  refine ⟨hb, by simp, fun J => ?_⟩
  obtain ⟨l, h1, h2, h3⟩ := C31_matrix_partial Np opstr (List.replicate opstr.length 0) J X hX (by simp) hroom
  exact ⟨l, h1, h2, fun r hr c hc => h3 r (Nat.lt_succ_iff.mp hr) c (Nat.lt_succ_iff.mp hc)⟩

/-- Three oscillators with the string `+|n|-`. -/
example (J : ℂ) : ∃ l, (many (ho 2) [ho 3, ho 1]).op "+|n|-".toList [0, 0, 0] J = some l := by
  have hw (n k : ℕ) (hn : n ≤ 3) (hk : k ≤ 1) : ∀ w, width (n + 1) = some w → n + k < 2 ^ (w - 1) := by
    intro w hw
    unfold width at hw
    rw [if_pos (by omega)] at hw
    obtain rfl := Option.some.inj hw
    norm_num
    omega
  obtain ⟨l, hl, -⟩ := C30_op ⟨ho 2, ['+'], [0], Spec.Oscillator.element Spec.Oscillator.raise⟩
    [⟨ho 3, ['n'], [0], Spec.Oscillator.element Spec.Oscillator.number⟩, ⟨ho 1, ['-'], [0], Spec.Oscillator.element Spec.Oscillator.lower⟩] (by
      intro g hg
      simp only [List.mem_cons, List.not_mem_nil, or_false] at hg
      rcases hg with rfl | rfl | rfl
      · exact ho_sound 2 ['+'] _ rfl (by decide) (hw 2 1 (by omega) (by omega))
      · exact ho_sound 3 ['n'] _ rfl (by decide) (hw 3 1 (by omega) (by omega))
      · exact ho_sound 1 ['-'] _ rfl (by decide) (hw 1 1 (by omega) (by omega))) J
  exact ⟨l, hl⟩

end Props
