import Verif.Proof.HamiltonianMul

namespace Proof.Ham
open Model.Ham Model.Drive Spec.TimeOp
open Proof.Drive (bind_some map_some)

variable {F A T R m n k : Type} [NormedCommRing R] [StarRing R]
variable {app : F → List A → T → R} {t : T}
variable {S : F × List A → Prop} {b : Nat} {env : Env F A R} {tol : ℝ}

/-! ### Copies of dictionaries -/

omit [StarRing R] in
theorem init_dict {H : PyHash F A} : ∀ {l d : List (Fn F A × Mat m n R)},
    (∀ e ∈ l, ∃ k, Model.Drive.hash H e.1 = some k) → l.Pairwise (fun x y => Model.Drive.eq H x.1 y.1 ≠ some true) →
    (∀ e ∈ l, ∀ x ∈ d, Model.Drive.eq H x.1 e.1 ≠ some true) →
    l.foldlM (initTerm H) d = some (d ++ l.map fun e => (e.1, e.2.asArray))
  | [], d, _, _, _ => by simp
  | e :: l, d, hh, hp, hd => by
    obtain ⟨k, hk⟩ := hh e (by simp)
    have hany : d.any (fun x => decide (Model.Drive.eq H x.1 e.1 = some true)) = false := by
      rw [← Bool.not_eq_true, List.any_eq_true]
      rintro ⟨x, hx, h⟩
      exact hd e (by simp) x hx (by simpa using h)
    have h1 : initTerm H d e = some (d ++ [(e.1, e.2.asArray)]) := by
      rw [initTerm, mem, hk]
      simp [hany]
    rw [List.foldlM_cons, h1]
    show List.foldlM _ _ _ = _
    rw [init_dict (fun x hx => hh x (by simp [hx])) (List.pairwise_cons.1 hp).2, List.map_cons, List.append_assoc]
    · rfl
    · intro y hy x hx
      rcases List.mem_append.1 hx with hx | hx
      · exact hd y (by simp [hy]) x hx
      · rw [List.mem_singleton.1 hx]
        exact (List.pairwise_cons.1 hp).1 y hy

omit [StarRing R] in
theorem astype_dict {h : Ham F A m n R} (hd : h.Dict env.hash) :
    astype env h = some ⟨(Mat.zero.add h.static).asArray, h.dynamic.map fun e => (e.1, e.2.asArray)⟩ := by
  rw [astype, ofMatrices, init_dict hd.1 hd.2 (fun e _ x hx => by simp at hx)]
  simp

theorem dsum_mapTerms {m' n' : Type} (tiny : Matrix m' n' R → Bool) (g : Mat m n R → Mat m' n' R)
    (hg : ∀ M : Mat m n R, (g M.asArray).val = (g M).val) (d : List (Fn F A × Mat m n R)) :
    dsum app t (((d.map fun e => (e.1, e.2.asArray)).map fun e => (e.1, g e.2)).filter fun e => !tiny e.2.val) =
      dsum app t ((d.map fun e => (e.1, g e.2)).filter fun e => !tiny e.2.val) := by
  induction d with
  | nil => rfl
  | cons e d ih =>
    simp only [List.map_cons, List.filter_cons, hg]
    split
    · rw [dsum_cons, dsum_cons, ih, hg]
    · exact ih

theorem clean_val {tiny : Matrix m n R → Bool} {a c : Mat m n R} (h : a.val = c.val) :
    (clean tiny a).val = (clean tiny c).val := by
  unfold clean
  rw [h]
  split
  · rfl
  · exact h

theorem scalar_agree {c : R} {h X Y : Ham F A m n R} (hd : h.Dict env.hash) (hX : imulScalar env c h = some X)
    (hY : mulScalar env c h = some Y) : toMatrix app X t = toMatrix app Y t := by
  rw [mulScalar, astype_dict hd] at hY
  obtain rfl := Option.some.inj hX
  obtain rfl := Option.some.inj hY
  rw [toMatrix_eq, toMatrix_eq]
  congr 1
  · exact clean_val (by simp [Mat.smul, Mat.asArray, Mat.add, Mat.zero])
  · exact (dsum_mapTerms _ (Mat.smul c) (fun _ => rfl) _).symm

theorem dense_agree [Fintype n] {a : Mat n k R} {h : Ham F A m n R} {X Y : Ham F A m k R} (hd : h.Dict env.hash)
    (hX : imulDense env h a = some X) (hY : mulDense env h a = some Y) : toMatrix app X t = toMatrix app Y t := by
  rw [mulDense, astype_dict hd] at hY
  obtain rfl := Option.some.inj hX
  obtain rfl := Option.some.inj hY
  rw [toMatrix_eq, toMatrix_eq]
  congr 1
  · exact clean_val (by simp [Mat.prod, Mat.asArray, Mat.add, Mat.zero])
  · exact (dsum_mapTerms _ (fun M => (M.prod a).asArray) (fun _ => rfl) _).symm

/-- In-place product with a sparse matrix, for an operator without dynamic part. -/
theorem imulSparse_ok [Fintype n] (ht : Threshold env tol) (h0 : 0 ≤ tol) {a : Mat n n R} {h new : Ham F A n n R}
    (hd : h.dynamic = []) (ha : ¬(h.static.fmt = .array ∧ a.fmt = .array)) (e : imulSparse env h a = some new) :
    Close tol (toMatrix app new t) (toMatrix app h t * a.val) := by
  rw [imulSparse, hd] at e
  obtain ⟨d, h1, rfl⟩ := map_some e
  obtain rfl : [] = d := by simpa [mapTermsM] using h1
  rw [Ham.ext_dyn rfl, Ham.ext_dyn hd, ← star_val ha]
  exact clean_close ht h0 _

omit [StarRing R] in
theorem astype_nil {h y : Ham F A m n R} (hd : h.dynamic = []) (e : astype env h = some y) : y.dynamic = [] := by
  obtain ⟨d, h1, rfl⟩ := map_some e
  rw [hd] at h1
  simpa using h1.symm

/-! ### Basis transformations -/

section Project
variable [Fintype n] [Fintype m]

theorem projectDense_ok (hc : NoCollision env.hash S b) (ht : Threshold env 0) {h : Ham F A n n R} {p : Mat n m R}
    {new : Ham F A m m R} (hk : Keys S b h.dynamic) (e : projectDense env h p = some new) :
    toMatrix app new t = p.val.conjTranspose * toMatrix app h t * p.val := by
  obtain ⟨x, hx, e⟩ := bind_some e
  obtain ⟨k1, c1⟩ := rmulDense_ok (app := app) (t := t) hc ht le_rfl hk hx
  obtain ⟨k2, c2⟩ := imulDense_ok (app := app) (t := t) ht le_rfl k1 e
  have hp : p.conj.trans.val = p.val.conjTranspose := rfl
  rw [exact_close c2, exact_close c1, hp]

theorem projectSparse_ok (hc : NoCollision env.hash S b) (ht : Threshold env 0) {h new : Ham F A n n R} {p : Mat n n R}
    (hd : h.dynamic = []) (hs : p.fmt ≠ .array) (e : projectSparse env h p = some new) :
    toMatrix app new t = p.val.conjTranspose * toMatrix app h t * p.val := by
  obtain ⟨x, hx, e⟩ := bind_some e
  have hk : Keys S b h.dynamic := by rw [hd]; intro e he; simp at he
  obtain ⟨k1, c1⟩ := rmulSparse_ok (app := app) (t := t) hc ht le_rfl hk (a := p.conj.trans) (fun h => absurd h hs) hx
  have hd' : x.dynamic = [] := by
    obtain ⟨y, hy, hx⟩ := bind_some hx
    obtain ⟨d, h2, rfl⟩ := map_some hx
    rw [astype_nil hd hy] at h2
    simpa [mapTermsM] using h2.symm
  have c2 := imulSparse_ok (app := app) (t := t) ht le_rfl hd' (fun h => hs h.2) e
  have hp : p.conj.trans.val = p.val.conjTranspose := rfl
  rw [eq_of_close c2, exact_close c1, hp]

end Project

end Proof.Ham
