import Verif.Model.InplaceCall
import Verif.Props.C13
import Verif.Proof.OpChecks
/-!
C104: `basis.inplace_Op` adds the product of the matrix of `Op` (transposed or conjugated on request)
and the given states to `v_out`, and treats its arguments as documented.
-/
namespace Props
open Model Model.InplaceCall Proof.Assembly
open Model.ExpmObject (DType f32 f64)

/-- Specification: the matrix `M` of the operator list, transposed and conjugated on request. -/
noncomputable def asked (tr cj : Bool) (M : ℕ → ℕ → ℂ) (r c : ℕ) : ℂ :=
  if cj then (starRingEnd ℂ) (if tr then M c r else M r c) else (if tr then M c r else M r c)

/-- Specification: entry of the product of that matrix with the states stored in the columns of `v`,
on `Ns` states. -/
noncomputable def product (Ns : ℕ) (tr cj : Bool) (M v : ℕ → ℕ → ℂ) (r k : ℕ) : ℂ :=
  ∑ c ∈ Finset.range Ns, asked tr cj M r c * v c k

/-- Specification: the values to which the product is added, those of `v_out` or zero. -/
def start : Option Arr → ℕ → ℕ → ℂ
  | none, _, _ => 0
  | some w, r, k => w.val r k

theorem product_add (Ns : ℕ) (tr cj : Bool) (M M' v : ℕ → ℕ → ℂ) (r k : ℕ) :
    product Ns tr cj (fun a c => M a c + M' a c) v r k
      = product Ns tr cj M v r k + product Ns tr cj M' v r k := by
  rw [product, product, product, ← Finset.sum_add_distrib]
  refine Finset.sum_congr rfl fun c _ => ?_
  cases tr <;> cases cj <;> simp [asked, add_mul]

theorem product_zero (Ns : ℕ) (tr cj : Bool) (v : ℕ → ℕ → ℂ) (r k : ℕ) :
    product Ns tr cj (fun _ _ => 0) v r k = 0 := by
  rw [product]
  refine Finset.sum_eq_zero fun c _ => ?_
  cases tr <;> cases cj <;> simp [asked]

theorem except_mapM {α β : Type} (f : α → Except CallErr β) :
    ∀ (ts : List α) (ls : List β), ts.mapM f = .ok ls → List.Forall₂ (fun t l => f t = .ok l) ts ls
  | [], ls, h => by
    simp [pure, Except.pure] at h
    subst h; exact .nil
  | t :: ts, ls, h => by
    rw [List.mapM_cons] at h
    cases ht : f t with
    | error e => rw [ht] at h; simp [bind, Except.bind] at h
    | ok l =>
      rw [ht] at h
      cases hr : ts.mapM f with
      | error e => rw [hr] at h; simp [bind, Except.bind] at h
      | ok r =>
        rw [hr] at h
        simp [bind, Except.bind, pure, Except.pure] at h
        subst h
        exact .cons ht (except_mapM f ts r hr)

theorem op_ok {b : IBasis} {d : DType} {t : Term} {l : List Triplet} (hNs : 0 < b.Ns)
    (h : op b d t = .ok l) :
    t.letters.length = t.sites.length ∧ sitesOk b.N t = true ∧
      opTriplets (b.column (pairs t) t.J) b.Ns = some l ∧ fits d l := by
  unfold op at h
  split at h
  · simp at h
  split at h
  · simp at h
  rename_i h2
  split at h
  · simp at h
  rename_i h3
  split at h
  · simp at h
  rw [if_neg (by omega)] at h
  split at h
  · simp at h
  · rename_i l' hl
    split at h
    · rename_i hf
      simp at h; subst h
      exact ⟨by simpa using h2, by simpa using h3, hl, hf⟩
    · simp at h

theorem triplets_isSome {c : ℕ → Option (Option (ℕ × ℂ))} {Ns : ℕ} {l : List Triplet}
    (h : opTriplets c Ns = some l) : ∀ i < Ns, (c i).isSome := by
  intro i hi
  by_contra hn
  have hc : c i = none := by simpa using hn
  rw [opTriplets, generalOp] at h
  cases hm : (List.range Ns).mapM fun i => (c i).map (tripletOf i) with
  | none => rw [hm] at h; simp at h
  | some r =>
    have hf := Proof.OpStr.mapM_forall₂ hm
    have : ∃ x, (c i).map (tripletOf i) = some x := by
      have hi' : i ∈ List.range Ns := by simpa using hi
      clear hm h
      generalize List.range Ns = q at hf hi'
      induction hf with
      | nil => simp at hi'
      | cons h1 _ ih =>
        rcases List.mem_cons.1 hi' with rfl | hi'
        · exact ⟨_, h1⟩
        · exact ih hi'
    rw [hc] at this
    simp at this

/-- One term: the compiled core adds the product with the matrix of the triplets of `Op`. -/
theorem coreTerm_ok {b : IBasis} {d : DType} {t : Term} {l : List Triplet} (hNs : 0 < b.Ns)
    (h : op b d t = .ok l) (tr cj : Bool) (m : ℕ) (order : ℕ → List ℕ)
    (horder : ∀ k, (order k).Perm (List.range b.Ns))
    (hrange : ∀ i < b.Ns, ∀ j x, b.column (pairs t) t.J i = some (some (j, x)) → j < b.Ns)
    (v out : ℕ → ℕ → ℂ) :
    ∃ y, coreTerm b d t tr cj m order v out = .ok y ∧
      ∀ r < b.Ns, ∀ k < m, y r k = out r k + product b.Ns tr cj (coo l) v r k := by
  obtain ⟨h1, h2, h3, h4⟩ := op_ok hNs h
  have hs := triplets_isSome h3
  unfold coreTerm
  rw [if_neg (by omega), if_neg (by simp [h2])]
  simp only [h3, if_pos h4]
  refine ⟨_, rfl, fun r hr k hk => ?_⟩
  simp only [if_pos hk]
  obtain ⟨M, out', hM, ho, he⟩ := C44_matrix_free (b.column (pairs t) t.J) b.Ns (by
    intro i hi
    obtain ⟨x, hx⟩ := Option.isSome_iff_exists.1 (hs i hi)
    exact ⟨x, hx, fun j m' e => hrange i hi j m' (by rw [hx, e])⟩)
    (order k) (horder k) tr cj (fun i => v i k) (fun i => out i k)
  have hM' : M = makeMatrix [l] := by
    simp [matrixOfColumns, h3] at hM
    exact hM.symm
  rw [ho]
  simp only
  rw [he r hr, hM']
  congr 1
  refine Finset.sum_congr rfl fun c _ => ?_
  simp [makeMatrix_eq, asked]

theorem coreTerms_ok {b : IBasis} {d : DType} (hNs : 0 < b.Ns) (tr cj : Bool) (m : ℕ)
    (order : ℕ → ℕ → List ℕ) (horder : ∀ n k, (order n k).Perm (List.range b.Ns))
    (v : ℕ → ℕ → ℂ) {ts : List Term} {ls : List (List Triplet)}
    (hf : List.Forall₂ (fun t l => op b d t = .ok l) ts ls)
    (hrange : ∀ t ∈ ts, ∀ i < b.Ns, ∀ j x, b.column (pairs t) t.J i = some (some (j, x)) → j < b.Ns)
    (n : ℕ) (out : ℕ → ℕ → ℂ) :
    ∃ y, coreTerms b d tr cj m order v ts n out = .ok y ∧
      ∀ r < b.Ns, ∀ k < m, y r k = out r k + product b.Ns tr cj (makeMatrix ls) v r k := by
  induction hf generalizing n out with
  | nil =>
    refine ⟨out, rfl, fun r _ k _ => ?_⟩
    rw [show makeMatrix [] = fun _ _ => 0 from rfl, product_zero, add_zero]
  | @cons t l ts ls h1 _ ih =>
    obtain ⟨y, hy, he⟩ := coreTerm_ok hNs h1 tr cj m (order n) (horder n)
      (hrange t (by simp)) v out
    obtain ⟨z, hz, hze⟩ := ih (fun t' ht' => hrange t' (by simp [ht'])) (n + 1) y
    refine ⟨z, by rw [coreTerms, hy]; exact hz, fun r hr k hk => ?_⟩
    rw [hze r hr k hk, he r hr k hk, add_assoc, ← product_add]
    congr 2
    funext a c
    simp [makeMatrix_eq]

/-- What `v_out` must be: the type of the result, the shape of `v_in`, contiguous and writable. -/
def GoodOut (v : Arr) (dtype : DType) (o : Option Arr) : Prop :=
  ∀ w ∈ o, w.type = v.type.join dtype ∧ w.contiguous = true ∧ w.writable = true ∧
    w.rows = v.rows ∧ w.tail = v.tail

theorem checkOut_good {v : Arr} {dtype : DType} {o : Option Arr} (h : GoodOut v dtype o) :
    checkOut v (v.type.join dtype) o = none := by
  cases o with
  | none => rfl
  | some w =>
    obtain ⟨h1, h2, h3, h4, h5⟩ := h w rfl
    simp [checkOut, h1, h2, h3, h4, h5]

/-- C104 for the `general` classes.  On a constructed basis, for states with as many rows as the
basis and a `v_out` that is absent or as documented, and for an operator list all of whose terms `Op`
accepts for the type of the result, the call returns, whatever the order in which the columns are
worked on: it returns `v_out` (zero if absent) plus the product of the matrix that `hamiltonian` makes
from the list, transposed and conjugated on request, with the states, and leaves the same values in
the array of the caller.
Missing: an empty basis (`C104_fails_empty`), a read-only `v_in` (`C104_fails_readonly`), terms that
`Op` refuses (`C104_fails_letters`, `C104_fails_sites`), the shape of the result
(`C104_fails_shape`). -/
theorem C104_general_partial (b : IBasis) (v : Arr) (ts : List Term) (dtype : DType) (tr cj : Bool)
    (o : Option Arr) (order : ℕ → ℕ → List ℕ) (hmade : b.made = true) (hNs : 0 < b.Ns)
    (hrows : v.rows = b.Ns) (hw : v.writable = true) (ho : GoodOut v dtype o)
    (horder : ∀ n k, (order n k).Perm (List.range b.Ns))
    (hrange : ∀ t ∈ ts, ∀ i < b.Ns, ∀ j x, b.column (pairs t) t.J i = some (some (j, x)) → j < b.Ns)
    (ls : List (List Triplet)) (hop : ts.mapM (op b (v.type.join dtype)) = .ok ls) :
    ∃ res, general b v ts dtype tr cj o order = .ok res ∧
      (∀ r < b.Ns, ∀ k < v.cols, res.val r k = start o r k + product b.Ns tr cj (makeMatrix ls) v.val r k) ∧
      res.caller = o.map fun _ => res.val := by
  obtain ⟨y, hy, he⟩ := coreTerms_ok (d := v.type.join dtype) hNs tr cj v.cols order horder v.val
    (except_mapM _ _ _ hop) hrange 0 (o.elim (fun _ _ => 0) Arr.val)
  refine ⟨⟨squeezed b.Ns v.cols, y, o.map fun _ => y⟩, ?_, fun r hr k hk => ?_, rfl⟩
  · unfold general
    rw [if_neg (by simp [hmade]), if_neg (by simp [hrows]), checkOut_good ho]
    simp only
    rw [if_neg (by omega), if_neg (by simp [hw]), hy]
  · show y r k = _
    rw [he r hr k hk]
    cases o <;> rfl

theorem cooDot_ok (Ns : ℕ) (tr cj : Bool) (m : ℕ) (v : ℕ → ℕ → ℂ) (l : List Triplet)
    (hl : ∀ t ∈ l, t.1 < Ns ∧ t.2.1 < Ns) (out : ℕ → ℕ → ℂ) (r k : ℕ) (hk : k < m) :
    cooDot tr cj m v l out r k = out r k + product Ns tr cj (coo l) v r k := by
  induction l generalizing out with
  | nil =>
    rw [show coo ([] : List Triplet) = fun _ _ => 0 by funext a c; simp [coo], product_zero, add_zero]
    rfl
  | cons t l ih =>
    obtain ⟨a, c, x⟩ := t
    rw [cooDot, ih (fun t ht => hl t (by simp [ht]))]
    have hac := hl (a, c, x) (by simp)
    rw [show coo ((a, c, x) :: l) = fun i j => coo [(a, c, x)] i j + coo l i j by
      funext i j; simp [coo], product_add]
    rw [← add_assoc]
    congr 1
    rw [product]
    cases tr with
    | false =>
      rw [Finset.sum_eq_single c]
      · by_cases hr : r = a
        · cases cj <;> simp [hr, hk, asked, coo]
        · have hr' : ¬ a = r := fun e => hr e.symm
          cases cj <;> simp [hr, hr', asked, coo]
      · intro j _ hj
        have hj' : ¬ c = j := fun e => hj e.symm
        cases cj <;> simp [asked, coo, hj']
      · intro hn; exact absurd (Finset.mem_range.2 hac.2) hn
    | true =>
      rw [Finset.sum_eq_single a]
      · by_cases hr : r = c
        · cases cj <;> simp [hr, hk, asked, coo]
        · have hr' : ¬ c = r := fun e => hr e.symm
          cases cj <;> simp [hr, hr', asked, coo]
      · intro j _ hj
        have hj' : ¬ a = j := fun e => hj e.symm
        cases cj <;> simp [asked, coo, hj']
      · intro hn; exact absurd (Finset.mem_range.2 hac.1) hn

theorem cooTerms_ok (Ns : ℕ) (tr cj : Bool) (m : ℕ) (v : ℕ → ℕ → ℂ) (ls : List (List Triplet))
    (hl : ∀ l ∈ ls, ∀ t ∈ l, t.1 < Ns ∧ t.2.1 < Ns) (out : ℕ → ℕ → ℂ) (r k : ℕ) (hk : k < m) :
    cooTerms tr cj m v ls out r k = out r k + product Ns tr cj (makeMatrix ls) v r k := by
  induction ls generalizing out with
  | nil =>
    rw [show makeMatrix [] = fun _ _ => 0 from rfl, product_zero, add_zero]
    rfl
  | cons l ls ih =>
    rw [cooTerms, ih (fun l' h => hl l' (by simp [h])),
      cooDot_ok Ns tr cj m v l (hl l (by simp)) out r k hk, add_assoc, ← product_add]
    congr 2
    funext a c
    simp [makeMatrix_eq]

/-- C104 for the default version (one-dimensional chains, tensor products, photon bases).  For states
with as many rows as the basis, a `v_out` that is absent or as documented, and an operator list all
of whose terms `Op` accepts with triplets inside the matrix, the call returns `v_out` plus the same
product, and leaves the same values in the array of the caller.  `v_in` may be read-only.
Missing: an empty basis (`C104_fails_empty`), a `v_out` of another shape (`C104_fails_columns`,
`C104_fails_more_columns`) or one that is not contiguous (`C104_fails_strided`), the shape of the
result (`C104_fails_shape`). -/
theorem C104_default_partial (Ns : ℕ) (opf : Term → Except CallErr (List Triplet)) (v : Arr)
    (ts : List Term) (dtype : DType) (tr cj : Bool) (o : Option Arr) (hNs : 0 < Ns)
    (hrows : v.rows = Ns) (ho : GoodOut v dtype o) (ls : List (List Triplet))
    (hop : ts.mapM opf = .ok ls) (hl : ∀ l ∈ ls, ∀ t ∈ l, t.1 < Ns ∧ t.2.1 < Ns) :
    ∃ res, InplaceCall.default Ns opf v ts dtype tr cj o = .ok res ∧
      (∀ r < Ns, ∀ k < v.cols, res.val r k = start o r k + product Ns tr cj (makeMatrix ls) v.val r k) ∧
      res.caller = o.map fun _ => res.val := by
  unfold InplaceCall.default
  rw [if_neg (by simp [hrows]), if_neg (by omega), hop]
  simp only
  cases o with
  | none =>
    refine ⟨_, rfl, fun r _ k hk => ?_, rfl⟩
    exact cooTerms_ok Ns tr cj v.cols v.val ls hl _ r k hk
  | some w =>
    obtain ⟨h1, h2, h3, h4, h5⟩ := ho w rfl
    have hc : w.cols = v.cols := by rw [Arr.cols, Arr.cols, h5]
    have hr : w.rows = Ns := h4.trans hrows
    have hk : w.rows * w.cols / Ns = v.cols := by
      rw [hr, hc, Nat.mul_div_cancel_left _ hNs]
    simp only [hk]
    rw [if_neg (by rw [hr]; simp), if_neg (by simp [h1, h3]), if_neg (by simp)]
    refine ⟨_, rfl, fun r _ k hk' => ?_, ?_⟩
    · have := cooTerms_ok Ns tr cj v.cols v.val ls hl (reshaped Ns v.cols w) r k hk'
      rw [show reshaped Ns v.cols w = w.val by simp [reshaped, hr]] at this
      simp only [show reshaped Ns v.cols w = w.val by simp [reshaped, hr]]
      exact this
    · simp [copies, h2, unshaped, hr]

/-- The triplets of `Op` lie inside the matrix if the core stays inside the basis. -/
theorem op_inside {b : IBasis} {d : DType} {t : Term} {l : List Triplet} (hNs : 0 < b.Ns)
    (h : op b d t = .ok l)
    (hrange : ∀ i < b.Ns, ∀ j x, b.column (pairs t) t.J i = some (some (j, x)) → j < b.Ns) :
    ∀ x ∈ l, x.1 < b.Ns ∧ x.2.1 < b.Ns := by
  obtain ⟨_, _, h3, _⟩ := op_ok hNs h
  rw [opTriplets, generalOp] at h3
  cases hm : (List.range b.Ns).mapM fun i => (b.column (pairs t) t.J i).map (tripletOf i) with
  | none => rw [hm] at h3; simp at h3
  | some q =>
    rw [hm] at h3
    simp at h3
    subst h3
    have hf := Proof.OpStr.mapM_forall₂ hm
    intro x hx
    have hx := (List.mem_filter.1 hx).1
    have key : ∀ (is : List ℕ) (q : List Triplet),
        List.Forall₂ (fun i y => (b.column (pairs t) t.J i).map (tripletOf i) = some y) is q →
        (∀ i ∈ is, i < b.Ns) → x ∈ q → x.1 < b.Ns ∧ x.2.1 < b.Ns := by
      intro is q hq
      induction hq with
      | nil => intro _ h; simp at h
      | @cons i y is q h1 _ ih =>
        intro hi h
        rcases List.mem_cons.1 h with rfl | h
        · cases hc : b.column (pairs t) t.J i with
          | none => rw [hc] at h1; simp at h1
          | some z =>
            rw [hc] at h1
            cases z with
            | none => simp [tripletOf] at h1; subst h1; exact ⟨hNs, hNs⟩
            | some p =>
              obtain ⟨j, m⟩ := p
              simp [tripletOf] at h1; subst h1
              exact ⟨hrange i (hi i (by simp)) j m hc, hi i (by simp)⟩
        · exact ih (fun i' h' => hi i' (by simp [h'])) h
    exact key _ _ hf (fun i hi => by simpa using hi) hx

/-- C104, both versions agree: on a basis of a `general` class, calling the default version with the
`Op` of the basis gives the values of the version that calls the core.  Missing: the arguments left
out of `C104_general_partial` and `C104_default_partial`, on which the versions differ. -/
theorem C104_agree_partial (b : IBasis) (v : Arr) (ts : List Term) (dtype : DType) (tr cj : Bool)
    (o : Option Arr) (order : ℕ → ℕ → List ℕ) (hmade : b.made = true) (hNs : 0 < b.Ns)
    (hrows : v.rows = b.Ns) (hw : v.writable = true) (ho : GoodOut v dtype o)
    (horder : ∀ n k, (order n k).Perm (List.range b.Ns))
    (hrange : ∀ t ∈ ts, ∀ i < b.Ns, ∀ j x, b.column (pairs t) t.J i = some (some (j, x)) → j < b.Ns)
    (ls : List (List Triplet)) (hop : ts.mapM (op b (v.type.join dtype)) = .ok ls) :
    ∃ x y, general b v ts dtype tr cj o order = .ok x ∧
      InplaceCall.default b.Ns (op b (v.type.join dtype)) v ts dtype tr cj o = .ok y ∧
      ∀ r < b.Ns, ∀ k < v.cols, x.val r k = y.val r k := by
  obtain ⟨x, hx, hxe, _⟩ := C104_general_partial b v ts dtype tr cj o order hmade hNs hrows hw ho
    horder hrange ls hop
  have hin : ∀ l ∈ ls, ∀ t ∈ l, t.1 < b.Ns ∧ t.2.1 < b.Ns := by
    have hf := except_mapM _ _ _ hop
    clear hop hxe hx
    induction hf with
    | nil => intro l h; simp at h
    | @cons t l ts ls h1 _ ih =>
      intro l' h
      rcases List.mem_cons.1 h with rfl | h
      · exact op_inside hNs h1 (hrange t (by simp))
      · exact ih (fun t' h' => hrange t' (by simp [h'])) l' h
  obtain ⟨y, hy, hye, _⟩ := C104_default_partial b.Ns (op b (v.type.join dtype)) v ts dtype tr cj o
    hNs hrows ho ls hop hin
  exact ⟨x, y, hx, hy, fun r hr k hk => by rw [hxe r hr k hk, hye r hr k hk]⟩

/-- C104, refusals of the `general` classes: a basis that is not constructed (`AttributeError`), states
of another length, a `v_out` of another shape or one that is not contiguous and writable
(`ValueError`), a `v_out` of another type (`TypeError`). -/
theorem C104_refuses (b : IBasis) (v : Arr) (ts : List Term) (dtype : DType) (tr cj : Bool)
    (w : Arr) (order : ℕ → ℕ → List ℕ) :
    (b.made = false → ∀ o, general b v ts dtype tr cj o order = .error .attributeError) ∧
    (b.made = true → v.rows ≠ b.Ns → ∀ o, general b v ts dtype tr cj o order = .error .valueError) ∧
    (b.made = true → v.rows = b.Ns → w.type ≠ v.type.join dtype →
      general b v ts dtype tr cj (some w) order = .error .typeError) ∧
    (b.made = true → v.rows = b.Ns → w.type = v.type.join dtype →
      (w.contiguous = false ∨ w.writable = false ∨ w.rows ≠ v.rows ∨ w.tail ≠ v.tail) →
      general b v ts dtype tr cj (some w) order = .error .valueError) := by
  refine ⟨fun h o => by simp [general, h], fun h h' o => by simp [general, h, h'],
    fun h h' h'' => by simp [general, h, h', checkOut, h''], fun h h' h'' hb => ?_⟩
  unfold general
  rw [if_neg (by simp [h]), if_neg (by simp [h'])]
  have : checkOut v (v.type.join dtype) (some w) = some .valueError := by
    rw [checkOut, if_neg (by simp [h''])]
    by_cases hc : (!(w.contiguous && w.writable)) = true
    · rw [if_pos hc]
    · rw [if_neg hc]
      simp only [Bool.not_eq_true', Bool.not_eq_false, Bool.and_eq_true] at hc
      rcases hb with hb | hb | hb | hb
      · simp [hb] at hc
      · simp [hb] at hc
      · rw [if_pos (.inl hb)]
      · rw [if_pos (.inr hb)]
  rw [this]

/-! ### Spin-1/2 lattices without symmetries -/

/-- The basis of all states of `N ≤ 32` spins-1/2 (`spin_basis_general(N)`, `basis_general/spin.py:160-170`). -/
noncomputable def spinLattice (N : ℕ) : IBasis where
  made := true
  N := N
  Ns := 2 ^ N
  allowed := fun c => ['I', '+', '-', 'x', 'y', 'z'].contains c
  column := fun str J => columnPlain (getIndexFull (2 ^ N)) (List.range (2 ^ N)).reverse
    fun s => hcbOp 32 N str s J

theorem hcb_known (w N : ℕ) (s : ℕ) : ∀ (str : List (Char × ℕ)) (x : ℕ × ℂ),
    (∀ p ∈ str, ['I', '+', '-', 'x', 'y', 'z'].contains p.1 = true) →
    (Model.opLoop (hcbStep w N) s str x).isSome
  | [], x, _ => rfl
  | (o, i) :: rest, x, h => by
    have h1 := h (o, i) (by simp)
    have ih := fun y => hcb_known w N s rest y fun p hp => h p (by simp [hp])
    simp only [List.contains_eq_mem, List.mem_cons, List.not_mem_nil, or_false,
      decide_eq_true_eq] at h1
    obtain ⟨y, hy⟩ : ∃ y, hcbStep w N o i x = some y := by
      rcases h1 with rfl | rfl | rfl | rfl | rfl | rfl <;> exact ⟨_, rfl⟩
    rw [Model.opLoop, hy]
    simp only
    split
    · rfl
    · exact ih y

theorem lattice_col (N : ℕ) (str : List (Char × ℕ)) (J : ℂ) (i : ℕ) :
    (spinLattice N).column str J i = columnPlain (getIndexFull (2 ^ N)) (List.range (2 ^ N)).reverse
      (fun s => hcbOp 32 N str s J) i := rfl

theorem lattice_column (N : ℕ) (str : List (Char × ℕ)) (J : ℂ)
    (h : ∀ p ∈ str, ['I', '+', '-', 'x', 'y', 'z'].contains p.1 = true) (i : ℕ) (hi : i < 2 ^ N) :
    ((spinLattice N).column str J i).isSome := by
  rw [lattice_col]
  unfold columnPlain
  rw [List.getElem?_eq_getElem (by simpa using hi)]
  simp only
  obtain ⟨y, hy⟩ := Option.isSome_iff_exists.1 (hcb_known 32 N
    ((List.range (2 ^ N)).reverse[i]'(by simpa using hi)) str.reverse
    ((List.range (2 ^ N)).reverse[i]'(by simpa using hi), J) (fun p hp => h p (by simpa using hp)))
  rw [hcbOp, hy]
  obtain ⟨r, m⟩ := y
  simp only [getIndexFull]
  split
  · split <;> rfl
  · rfl

theorem lattice_range (N : ℕ) (str : List (Char × ℕ)) (J : ℂ) (i : ℕ) (hi : i < 2 ^ N) (j : ℕ) (x : ℂ)
    (h : (spinLattice N).column str J i = some (some (j, x))) : j < 2 ^ N := by
  rw [lattice_col] at h
  unfold columnPlain at h
  rw [List.getElem?_eq_getElem (by simpa using hi)] at h
  simp only [getIndexFull] at h
  split at h
  · simp at h
  split at h
  · split at h
    · simp at h
      have h2 : ((2 ^ N : ℕ) : ℤ) = 2 ^ N := by push_cast; rfl
      omega
    · simp at h
  · simp at h; omega

/-- `Op` accepts every string of known letters on sites of the lattice, one letter per site, for a
complex type. -/
theorem lattice_op (N : ℕ) (d : DType) (hd : d.cplx = true) (t : Term)
    (h1 : t.letters.length = t.sites.length) (h2 : sitesOk N t = true)
    (h3 : t.letters.all (fun c => ['I', '+', '-', 'x', 'y', 'z'].contains c) = true) :
    ∃ l, op (spinLattice N) d t = .ok l := by
  have hk : ∀ p ∈ pairs t, ['I', '+', '-', 'x', 'y', 'z'].contains p.1 = true := by
    intro p hp
    exact List.all_eq_true.1 h3 p.1 (List.of_mem_zip hp).1
  obtain ⟨l, hl, _⟩ := opTriplets_spec ((spinLattice N).column (pairs t) t.J) (2 ^ N)
    (lattice_column N _ _ hk)
  refine ⟨l, ?_⟩
  unfold op
  rw [if_neg (by simp [spinLattice]), if_neg (by simp [h1]),
    if_neg (by rw [show (spinLattice N).N = N from rfl]; simp [h2]),
    if_neg (by rw [show (spinLattice N).allowed = fun c => ['I', '+', '-', 'x', 'y', 'z'].contains c from rfl, h3]; simp),
    if_neg (by show ¬ 2 ^ N = 0; positivity)]
  rw [show (spinLattice N).Ns = 2 ^ N from rfl, hl]
  simp only
  rw [if_pos (.inl hd)]

/-- C104 on spin-1/2 lattices without symmetries: for every list of strings of known letters on sites
of the lattice and a complex type, the call adds the product with the matrix of the list, which
exists.  Missing: as in `C104_general_partial`; lattices with symmetries, for which
`C104_general_partial` needs that the core stays inside the basis. -/
theorem C104_lattice_partial (N : ℕ) (v : Arr) (ts : List Term) (dtype : DType) (tr cj : Bool)
    (o : Option Arr) (order : ℕ → ℕ → List ℕ) (hd : (v.type.join dtype).cplx = true)
    (hrows : v.rows = 2 ^ N) (hw : v.writable = true) (ho : GoodOut v dtype o)
    (horder : ∀ n k, (order n k).Perm (List.range (2 ^ N)))
    (hts : ∀ t ∈ ts, t.letters.length = t.sites.length ∧ sitesOk N t = true ∧
      t.letters.all (fun c => ['I', '+', '-', 'x', 'y', 'z'].contains c) = true) :
    ∃ ls res, ts.mapM (op (spinLattice N) (v.type.join dtype)) = .ok ls ∧
      general (spinLattice N) v ts dtype tr cj o order = .ok res ∧
      (∀ r < 2 ^ N, ∀ k < v.cols, res.val r k = start o r k + product (2 ^ N) tr cj (makeMatrix ls) v.val r k) ∧
      res.caller = o.map fun _ => res.val := by
  have hex : ∃ ls, ts.mapM (op (spinLattice N) (v.type.join dtype)) = .ok ls := by
    clear ho
    induction ts with
    | nil => exact ⟨[], rfl⟩
    | cons t ts ih =>
      obtain ⟨ls, hls⟩ := ih fun t' h' => hts t' (by simp [h'])
      obtain ⟨h1, h2, h3⟩ := hts t (by simp)
      obtain ⟨l, hl⟩ := lattice_op N _ hd t h1 h2 h3
      exact ⟨l :: ls, by rw [List.mapM_cons, hl, hls]; rfl⟩
  obtain ⟨ls, hls⟩ := hex
  obtain ⟨res, h⟩ := C104_general_partial (spinLattice N) v ts dtype tr cj o order rfl
    (show 0 < 2 ^ N by positivity) hrows hw ho horder
    (fun t _ i hi j x hx => lattice_range N _ _ i hi j x hx) ls hls
  exact ⟨ls, res, hls, h⟩

/-- A list of two terms on three sites, acting with the adjoint on two states with a given `v_out`,
columns in reverse order. -/
example := C104_lattice_partial 3
  ⟨8, [2], ⟨true, true⟩, true, true, true, fun r k => (r + k : ℂ)⟩
  [⟨['+', '-'], [0, 2], Complex.I⟩, ⟨['z', 'z', 'y'], [0, 1, 2], 3⟩] f64 true true
  (some ⟨8, [2], ⟨true, true⟩, true, true, true, fun r k => (r * k : ℂ)⟩)
  (fun _ _ => (List.range (2 ^ 3)).reverse) rfl rfl rfl
  (by intro w hw; cases hw; exact ⟨rfl, rfl, rfl, rfl, rfl⟩)
  (fun _ _ => List.reverse_perm _)
  (by intro t ht; simp at ht; rcases ht with rfl | rfl <;> decide)

/-! ### Pauli matrices -/

/-- The core is linear in the coefficient. -/
def LinearCore (b : IBasis) : Prop :=
  ∀ str J c i, c ≠ 0 → b.column str (J * c) i
    = (b.column str J i).map (Option.map fun p => (p.1, p.2 * c))

theorem hcbStep_scale (w N : ℕ) (o : Char) (i : ℕ) (x : ℕ × ℂ) (c : ℂ) :
    hcbStep w N o i (x.1, x.2 * c) = (hcbStep w N o i x).map fun y => (y.1, y.2 * c) := by
  unfold hcbStep
  split <;> simp [mul_assoc, mul_comm]

theorem hcbLoop_scale (w N s : ℕ) (c : ℂ) (hc : c ≠ 0) : ∀ (str : List (Char × ℕ)) (x : ℕ × ℂ),
    Model.opLoop (hcbStep w N) s str (x.1, x.2 * c)
      = (Model.opLoop (hcbStep w N) s str x).map fun y => (y.1, y.2 * c)
  | [], x => rfl
  | (o, i) :: rest, x => by
    rw [Model.opLoop, Model.opLoop, hcbStep_scale]
    cases hcbStep w N o i x with
    | none => rfl
    | some y =>
      simp only [Option.map_some]
      by_cases h : y.2 = 0
      · simp [h]
      · rw [if_neg (by simp [h, hc]), if_neg h]
        exact hcbLoop_scale w N s c hc rest y

theorem lattice_linear (N : ℕ) : LinearCore (spinLattice N) := by
  intro str J c i hc
  rw [lattice_col, lattice_col]
  unfold columnPlain
  cases (List.range (2 ^ N)).reverse[i]? with
  | none => rfl
  | some s =>
    simp only
    have := hcbLoop_scale 32 N s c hc str.reverse (s, J)
    simp only at this
    rw [hcbOp, hcbOp, this]
    cases Model.opLoop (hcbStep 32 N) s str.reverse (s, J) with
    | none => rfl
    | some y =>
      simp only [Option.map_some, getIndexFull]
      split
      · split <;> rfl
      · rfl

theorem pauli_pow (pauli : ℤ) (str : List Char) : ∃ n : ℕ, pauliFactor pauli str = ((2 ^ n : ℝ) : ℂ) := by
  unfold pauliFactor
  split
  · exact ⟨_, by push_cast; rfl⟩
  · split
    · exact ⟨_, by push_cast; rfl⟩
    · exact ⟨0, by simp⟩

theorem triplets_scale (b : IBasis) (hb : LinearCore b) (str : List (Char × ℕ)) (J c : ℂ) (hc : c ≠ 0)
    (Ns : ℕ) : opTriplets (b.column str (J * c)) Ns
      = (opTriplets (b.column str J) Ns).map (List.map fun x => (x.1, x.2.1, x.2.2 * c)) := by
  have key : ∀ is : List ℕ, (is.mapM fun i => (b.column str (J * c) i).map (tripletOf i))
      = (is.mapM fun i => (b.column str J i).map (tripletOf i)).map
        (List.map fun x => (x.1, x.2.1, x.2.2 * c)) := by
    intro is
    induction is with
    | nil => rfl
    | cons i is ih =>
      rw [List.mapM_cons, List.mapM_cons, ih, hb str J c i hc]
      cases b.column str J i with
      | none => rfl
      | some z =>
        cases is.mapM fun i => (b.column str J i).map (tripletOf i) with
        | none => cases z <;> rfl
        | some q =>
          cases z with
          | none => simp [tripletOf]
          | some p => simp [tripletOf]
  rw [opTriplets, opTriplets, generalOp, generalOp, key]
  cases (List.range Ns).mapM fun i => (b.column str J i).map (tripletOf i) with
  | none => rfl
  | some q =>
    simp only [Option.map_some, Option.some.injEq]
    rw [List.filter_map]
    congr 1
    apply List.filter_congr
    intro x _
    simp [hc]

/-- C104, Pauli matrices: `Op` multiplies the elements by a power of two where `inplace_Op` multiplies
the coefficient; both act with the same matrix, so that the theorems above hold for
`spin_basis_general` with every value of `pauli` and the matrix of its own `Op`. -/
theorem C104_pauli (pauli : ℤ) (b : IBasis) (hb : LinearCore b) (d : DType) (t : Term) :
    op b d (spinTerm pauli t) = spinOpCall pauli b d t := by
  obtain ⟨n, hn⟩ := pauli_pow pauli t.letters
  have hc : pauliFactor pauli t.letters ≠ 0 := by rw [hn]; simp
  unfold spinOpCall op
  rw [show (spinTerm pauli t).letters = t.letters from rfl,
    show (spinTerm pauli t).sites = t.sites from rfl,
    show pairs (spinTerm pauli t) = pairs t from rfl,
    show sitesOk b.N (spinTerm pauli t) = sitesOk b.N t from rfl,
    show (spinTerm pauli t).J = t.J * pauliFactor pauli t.letters from rfl,
    triplets_scale b hb _ _ _ hc]
  by_cases h1 : (!b.made) = true
  · simp [h1]
  by_cases h2 : t.letters.length = t.sites.length
  swap
  · simp [h1, h2]
  by_cases h3 : (!sitesOk b.N t) = true
  · simp [h1, h2, h3]
  by_cases h4 : (!t.letters.all b.allowed) = true
  · rw [if_neg h1, if_neg (by simp [h2]), if_neg h3, if_pos h4, if_neg h1, if_neg (by simp [h2]),
      if_neg h3, if_pos h4]
  by_cases h5 : b.Ns = 0
  · rw [if_neg h1, if_neg (by simp [h2]), if_neg h3, if_neg h4, if_pos h5, if_neg h1,
      if_neg (by simp [h2]), if_neg h3, if_neg h4, if_pos h5]
    rfl
  rw [if_neg h1, if_neg (by simp [h2]), if_neg h3, if_neg h4, if_neg h5, if_neg h1,
      if_neg (by simp [h2]), if_neg h3, if_neg h4, if_neg h5]
  cases opTriplets (b.column (pairs t) t.J) b.Ns with
  | none => rfl
  | some l =>
    simp only [Option.map_some]
    have : fits d (l.map fun x => (x.1, x.2.1, x.2.2 * pauliFactor pauli t.letters)) ↔ fits d l := by
      unfold fits
      rw [hn]
      simp only [List.mem_map, forall_exists_index, and_imp]
      refine or_congr Iff.rfl ⟨fun h x hx => ?_, fun h x y hy e => ?_⟩
      · have := h _ x hx rfl
        rw [Complex.im_mul_ofReal] at this
        exact (mul_eq_zero.1 this).resolve_right (by positivity)
      · subst e
        show (y.2.2 * ((2 ^ n : ℝ) : ℂ)).im = 0
        rw [Complex.im_mul_ofReal, h y hy, zero_mul]
    by_cases hf : fits d l
    · rw [if_pos (this.2 hf), if_pos hf]
    · rw [if_neg (fun h => hf (this.1 h)), if_neg hf]

example := C104_pauli (-1) (spinLattice 3) (lattice_linear 3) f64 ⟨['+', 'z'], [0, 2], 3⟩

/-! ### Defects -/

/-- The `general` classes ignore letters beyond the number of sites: for every basis, `inplace_Op` with
a longer string gives what it gives without the extra letters, whatever they are, while `Op` raises a
`ValueError`. -/
theorem C104_fails_letters (b : IBasis) (v : Arr) (ls extra : List Char) (sites : List ℤ) (J : ℂ)
    (dtype : DType) (tr cj : Bool) (o : Option Arr) (order : ℕ → ℕ → List ℕ)
    (hl : ls.length = sites.length) (he : extra ≠ []) (hmade : b.made = true) :
    general b v [⟨ls ++ extra, sites, J⟩] dtype tr cj o order
      = general b v [⟨ls, sites, J⟩] dtype tr cj o order ∧
    op b dtype ⟨ls ++ extra, sites, J⟩ = .error .valueError := by
  have hp : pairs ⟨ls ++ extra, sites, J⟩ = pairs ⟨ls, sites, J⟩ := by
    simp only [pairs]
    have : (ls ++ extra).zip (sites.map Int.toNat)
        = (ls ++ extra).zip (sites.map Int.toNat ++ []) := by simp
    rw [this, List.zip_append (by simpa using hl)]
    simp
  have hpos : 0 < extra.length := List.length_pos_iff.2 he
  constructor
  · unfold general
    simp only [coreTerms, coreTerm, hp, hl, List.length_append, sitesOk]
    rw [if_neg (show ¬ sites.length + extra.length < sites.length by omega),
      if_neg (show ¬ sites.length < sites.length by omega)]
    simp only [ne_eq, List.cons_ne_nil, not_false_eq_true]
  · unfold op
    rw [if_neg (by simp [hmade]), if_pos (by simp only [List.length_append]; omega)]

/-- On the lattice of one spin, `[["zx",[0],1]]` acts as `[["z",[0],1]]`: the call succeeds. -/
example : ∃ res, general (spinLattice 1) ⟨2, [], ⟨true, true⟩, true, true, true, fun _ _ => 1⟩
    [⟨['z', 'x'], [0], 1⟩] f64 false false none (fun _ _ => List.range 2) = .ok res := by
  have h := (C104_fails_letters (spinLattice 1)
    ⟨2, [], ⟨true, true⟩, true, true, true, fun _ _ => 1⟩ ['z'] ['x'] [0] 1 f64 false false none
    (fun _ _ => List.range 2) rfl (by simp) rfl).1
  obtain ⟨ls, res, _, h', _⟩ := C104_lattice_partial 1
    ⟨2, [], ⟨true, true⟩, true, true, true, fun _ _ => 1⟩ [⟨['z'], [0], 1⟩] f64 false false none
    (fun _ _ => List.range 2) rfl rfl rfl (by intro w hw; simp at hw) (fun _ _ => List.Perm.refl _)
    (by intro t ht; simp at ht; subst ht; decide)
  exact ⟨res, h.trans h'⟩

/-- A site outside the lattice, or fewer letters than sites, makes `inplace_Op` of the `general`
classes read outside its arrays or shift by a negative number, where `Op` raises a `ValueError`: here
for the spin at site 1 of a lattice with one site, and for the string "z" on two sites. -/
theorem C104_fails_sites (v : Arr) (hv : v.rows = 2) (hw : v.writable = true) (order : ℕ → ℕ → List ℕ) :
    general (spinLattice 1) v [⟨['z'], [1], 1⟩] f64 false false none order = .error .undefined ∧
    op (spinLattice 1) f64 ⟨['z'], [1], 1⟩ = .error .valueError ∧
    general (spinLattice 1) v [⟨['z'], [0, 0], 1⟩] f64 false false none order = .error .undefined ∧
    op (spinLattice 1) f64 ⟨['z'], [0, 0], 1⟩ = .error .valueError := by
  refine ⟨?_, ?_, ?_, ?_⟩
  · simp [general, spinLattice, hv, hw, checkOut, coreTerms, coreTerm, sitesOk]
  · simp [op, spinLattice, sitesOk]
  · simp [general, spinLattice, hv, hw, checkOut, coreTerms, coreTerm]
  · simp [op, spinLattice]

/-- The `general` classes refuse states stored in a read-only array, although nothing is written to
it: for every basis and every list with at least one term, unless the array had to be copied because of
its type or its order.  The default version accepts it (`C104_default_partial`). -/
theorem C104_fails_readonly (b : IBasis) (v : Arr) (ts : List Term) (dtype : DType) (tr cj : Bool)
    (order : ℕ → ℕ → List ℕ) (hts : ts ≠ []) (hmade : b.made = true) (hrows : v.rows = b.Ns)
    (ht : v.type = v.type.join dtype) (hc : v.contiguous = true) (hw : v.writable = false) :
    general b v ts dtype tr cj none order = .error .valueError := by
  unfold general
  rw [if_neg (by simp [hmade]), if_neg (by simp [hrows])]
  simp only [checkOut]
  by_cases h : b.Ns = 0
  · rw [if_pos h]
  · rw [if_neg h, if_pos ⟨hts, ht, hc, hw⟩]

/-- On an empty basis, for which `Op` returns no triplets, both versions raise a `ValueError` even
for states with zero rows: numpy cannot find the number of columns in `reshape((0,-1))`. -/
theorem C104_fails_empty (b : IBasis) (opf : Term → Except CallErr (List Triplet)) (v : Arr)
    (ts : List Term) (dtype : DType) (tr cj : Bool) (order : ℕ → ℕ → List ℕ) (hmade : b.made = true)
    (hNs : b.Ns = 0) (hrows : v.rows = 0) :
    general b v ts dtype tr cj none order = .error .valueError ∧
    InplaceCall.default b.Ns opf v ts dtype tr cj none = .error .valueError := by
  constructor
  · simp [general, hmade, hNs, hrows, checkOut]
  · simp [InplaceCall.default, hNs, hrows]

/-- The returned array need not have the shape of `v_in` and `v_out`: one state given as a column, of
shape `(Ns,1)`, comes back with shape `(Ns,)`; several states in a basis with a single state, of shape
`(1,m)`, come back with shape `(m,)`; arrays with three dimensions `(Ns,m,n)` come back with two. -/
theorem C104_fails_shape (b : IBasis) (v : Arr) (ts : List Term) (dtype : DType) (tr cj : Bool)
    (o : Option Arr) (order : ℕ → ℕ → List ℕ) (res : Res)
    (h : general b v ts dtype tr cj o order = .ok res) :
    (v.tail = [1] → b.Ns ≠ 1 → res.shape = [b.Ns]) ∧
    (∀ m, v.tail = [m] → b.Ns = 1 → m ≠ 1 → res.shape = [m]) ∧
    (∀ m n, v.tail = [m, n] → res.shape ≠ v.rows :: v.tail) := by
  have hs : res.shape = squeezed b.Ns v.cols := by
    unfold general at h
    split at h
    · simp at h
    split at h
    · simp at h
    split at h
    · simp at h
    split at h
    · simp at h
    split at h
    · simp at h
    split at h
    · simp at h
    · simp at h; rw [← h]
  refine ⟨fun ht hn => ?_, fun m ht hn hm => ?_, fun m n ht he => ?_⟩
  · rw [hs]; simp [squeezed, Arr.cols, ht, hn]
  · rw [hs]; simp [squeezed, Arr.cols, ht, hn, hm]
  · rw [hs, ht] at he
    have := congrArg List.length he
    have h2 : (squeezed b.Ns v.cols).length ≤ 2 := List.length_filter_le _ _
    rw [this] at h2
    simp at h2

/-- The default version does not check the shape of `v_out`: with fewer columns than `v_in` it writes
behind the end of the rows (here for one state against two, and any operator with a matrix element),
where the `general` classes raise a `ValueError`. -/
theorem C104_fails_columns (Ns : ℕ) (hNs : 0 < Ns) (opf : Term → Except CallErr (List Triplet))
    (t : Term) (x : Triplet) (l : List Triplet) (h : opf t = .ok (x :: l)) (a b : ℕ → ℕ → ℂ) :
    InplaceCall.default Ns opf ⟨Ns, [2], f64, true, true, true, a⟩ [t] f64 false false
      (some ⟨Ns, [1], f64, true, true, true, b⟩) = .error .undefined := by
  have hm : [t].mapM opf = .ok [x :: l] := by
    rw [List.mapM_cons, h]; rfl
  unfold InplaceCall.default
  rw [if_neg (by simp), if_neg (by omega), hm]
  simp only
  rw [if_neg (by simp [Arr.cols]), if_neg (by simp [f64, DType.join]), if_pos]
  refine ⟨⟨x :: l, by simp, by simp⟩, ?_⟩
  simp [Arr.cols, Nat.div_self hNs]

/-- With more columns than `v_in`, the default version accepts `v_out` and leaves the other columns
as they are, where the `general` classes raise a `ValueError`. -/
theorem C104_fails_more_columns (Ns : ℕ) (hNs : 0 < Ns) (opf : Term → Except CallErr (List Triplet))
    (ts : List Term) (ls : List (List Triplet)) (h : ts.mapM opf = .ok ls) (m n : ℕ) (hmn : m < n)
    (a c : ℕ → ℕ → ℂ) :
    ∃ res, InplaceCall.default Ns opf ⟨Ns, [m], f64, true, true, true, a⟩ ts f64 false false
      (some ⟨Ns, [n], f64, true, true, true, c⟩) = .ok res ∧
      ∀ r k, m ≤ k → res.val r k = c r k := by
  have hk : Ns * n / Ns = n := Nat.mul_div_cancel_left _ hNs
  unfold InplaceCall.default
  rw [if_neg (by simp), if_neg (by omega), h]
  simp only [Arr.cols, List.prod_cons, List.prod_nil, mul_one, hk]
  rw [if_neg (by simp), if_neg (by simp [f64, DType.join]), if_neg (by omega)]
  refine ⟨_, rfl, fun r k hmk => ?_⟩
  have hd : ∀ (l : List Triplet) (out : ℕ → ℕ → ℂ),
      cooDot false false m a l out r k = out r k := by
    intro l
    induction l with
    | nil => intro out; rfl
    | cons t l ih =>
      intro out
      obtain ⟨p, q, x⟩ := t
      rw [cooDot, ih]
      simp [show ¬ k < m by omega]
  have ht : ∀ (ls : List (List Triplet)) (out : ℕ → ℕ → ℂ),
      cooTerms false false m a ls out r k = out r k := by
    intro ls
    induction ls with
    | nil => intro out; rfl
    | cons l ls ih => intro out; rw [cooTerms, ih, hd]
  show cooTerms false false m a ls _ r k = _
  rw [ht]
  simp [reshaped]

/-- The default version does not check that `v_out` can be reshaped without a copy: given an array with
three dimensions that is not contiguous, the result is written to a copy, and the array of the caller,
which the documentation says is modified, is left as it was. -/
theorem C104_fails_strided (Ns : ℕ) (hNs : 0 < Ns) (opf : Term → Except CallErr (List Triplet))
    (ts : List Term) (ls : List (List Triplet)) (h : ts.mapM opf = .ok ls) (v w : Arr)
    (hv : v.rows = Ns) (hr : w.rows = Ns) (ht : w.tail = v.tail) (hty : w.type = f64)
    (hvt : v.type = f64) (hww : w.writable = true) (hc : w.contiguous = false)
    (hm : w.merges = false) :
    ∃ res, InplaceCall.default Ns opf v ts f64 false false (some w) = .ok res ∧
      res.caller = some w.val := by
  have hcols : w.cols = v.cols := by rw [Arr.cols, Arr.cols, ht]
  have hk : w.rows * w.cols / Ns = v.cols := by rw [hr, hcols, Nat.mul_div_cancel_left _ hNs]
  unfold InplaceCall.default
  rw [if_neg (by simp [hv]), if_neg (by omega), h]
  simp only [hk]
  rw [if_neg (by simp [hr]), if_neg (by simp [hww, hvt, hty, f64, DType.join]), if_neg (by simp)]
  exact ⟨_, rfl, by simp [copies, hc, hm]⟩

/-- The hypotheses of the three theorems above are met by the magnetisation of one spin, `Op` of
`[["z",[0],1]]`. -/
example : ∃ x l, op (spinLattice 1) ⟨true, true⟩ ⟨['z'], [0], 1⟩ = .ok (x :: l) := by
  obtain ⟨l, hl⟩ := lattice_op 1 ⟨true, true⟩ rfl ⟨['z'], [0], 1⟩ rfl (by decide) (by decide)
  cases l with
  | cons x l => exact ⟨x, l, hl⟩
  | nil =>
    exfalso
    obtain ⟨_, _, h3, _⟩ := op_ok (b := spinLattice 1) (by show 0 < 2 ^ 1; norm_num) hl
    have hs := triplets_isSome h3
    obtain ⟨l', hl', he⟩ := opTriplets_spec _ _ hs
    rw [h3] at hl'
    cases hl'
    have := he 0 0 (by show 0 < 2 ^ 1; norm_num)
    rw [show coo [] 0 0 = 0 from rfl] at this
    simp [entry, spinLattice, columnPlain, pairs, hcbOp, Model.opLoop, hcbStep] at this

end Props
