import Verif.Proof.Hamiltonian

namespace Proof.Ham
open Model.Ham Model.Drive Spec.TimeOp
open Proof.Drive (bind_some map_some)

variable {F A T R m n k : Type} [NormedCommRing R] [StarRing R]
variable {app : F → List A → T → R} {t : T}
variable {S : F × List A → Prop} {b b1 b2 : Nat} {env : Env F A R} {tol : ℝ}

/-! ### Containers -/

section Containers
omit [StarRing R]

theorem update_sparse {H : PyHash F A} {f : Fn F A} {g : Mat m n R → Mat m n R}
    (hg : ∀ M : Mat m n R, M.fmt = .sparse → (g M).fmt = .sparse) {d : List (Fn F A × Mat m n R)}
    (hd : ∀ e ∈ d, e.2.fmt = .sparse) : ∀ e ∈ update H f g d, e.2.fmt = .sparse := by
  induction d with
  | nil => intro e h; simp [update] at h
  | cons x d ih =>
    intro e he
    rw [update] at he
    split at he
    · rcases List.mem_cons.1 he with rfl | he
      · exact hg _ (hd x (by simp))
      · exact hd e (by simp [he])
    · rcases List.mem_cons.1 he with rfl | he
      · exact hd _ (by simp)
      · exact ih (fun e h => hd e (by simp [h])) e he

theorem updatePop_sparse {H : PyHash F A} {tiny : Matrix m n R → Bool} {f : Fn F A} {g : Mat m n R → Mat m n R}
    (hg : ∀ M : Mat m n R, M.fmt = .sparse → (g M).fmt = .sparse) {d : List (Fn F A × Mat m n R)}
    (hd : ∀ e ∈ d, e.2.fmt = .sparse) : ∀ e ∈ updatePop H tiny f g d, e.2.fmt = .sparse := by
  induction d with
  | nil => intro e h; simp [updatePop] at h
  | cons x d ih =>
    intro e he
    rw [updatePop] at he
    split at he
    · split at he
      · exact hd e (by simp [he])
      · rcases List.mem_cons.1 he with rfl | he
        · exact hg _ (hd x (by simp))
        · exact hd e (by simp [he])
    · rcases List.mem_cons.1 he with rfl | he
      · exact hd _ (by simp)
      · exact ih (fun e h => hd e (by simp [h])) e he

theorem foldlM_sparse {step : List (Fn F A × Mat m n R) → Fn F A × Mat m n R → Option (List (Fn F A × Mat m n R))}
    (hs : ∀ d e d', (∀ x ∈ d, x.2.fmt = .sparse) → e.2.fmt = .sparse → step d e = some d' →
      ∀ x ∈ d', x.2.fmt = .sparse) :
    ∀ {l d d' : List (Fn F A × Mat m n R)}, (∀ x ∈ d, x.2.fmt = .sparse) → (∀ x ∈ l, x.2.fmt = .sparse) →
      l.foldlM step d = some d' → ∀ x ∈ d', x.2.fmt = .sparse
  | [], d, d', hd, _, h => by
    obtain rfl : d = d' := by simpa using h
    exact hd
  | e :: l, d, d', hd, hl, h => by
    rw [List.foldlM_cons] at h
    obtain ⟨d1, h1, h2⟩ := bind_some h
    exact foldlM_sparse hs (hs d e d1 hd (hl e (by simp)) h1) (fun x hx => hl x (by simp [hx])) h2

theorem snoc_sparse {d : List (Fn F A × Mat m n R)} {e : Fn F A × Mat m n R} (hd : ∀ x ∈ d, x.2.fmt = .sparse)
    (he : e.2.fmt = .sparse) : ∀ x ∈ d ++ [e], x.2.fmt = .sparse := by
  intro x hx
  rcases List.mem_append.1 hx with hx | hx
  · exact hd x hx
  · rw [List.mem_singleton.1 hx]; exact he

theorem add_sparse {a c : Mat m n R} (ha : a.fmt = .sparse) (hc : c.fmt = .sparse) : (a.add c).fmt = .sparse := by
  simp [Mat.add, ha, hc, Fmt.add]

theorem sub_sparse {a c : Mat m n R} (ha : a.fmt = .sparse) (hc : c.fmt = .sparse) : (a.sub c).fmt = .sparse := by
  simp [Mat.sub, ha, hc, Fmt.add]

theorem asArray_sparse {a : Mat m n R} (ha : a.fmt = .sparse) : a.asArray.fmt = .sparse := by
  simp [Mat.asArray, ha, Fmt.asArray]

theorem prod_sparse [Fintype n] {a : Mat m n R} {c : Mat n k R} (ha : a.fmt = .sparse) (hc : c.fmt = .sparse) :
    (a.prod c).fmt = .sparse := by
  simp [Mat.prod, ha, hc, Fmt.mul]

theorem star_sparse [Fintype n] {a c : Mat n n R} (ha : a.fmt = .sparse) (hc : c.fmt = .sparse) :
    (a.star c).fmt = .sparse := by
  rw [Mat.star, if_neg (by simp [ha])]; exact prod_sparse ha hc

theorem clean_sparse {tiny : Matrix m n R → Bool} {a : Mat m n R} (ha : a.fmt = .sparse) :
    (clean tiny a).fmt = .sparse := by
  unfold clean; split
  · rfl
  · exact ha

theorem initTerm_sparse {d d' : List (Fn F A × Mat m n R)} {e : Fn F A × Mat m n R} (hd : ∀ x ∈ d, x.2.fmt = .sparse)
    (he : e.2.fmt = .sparse) (h : initTerm env.hash d e = some d') : ∀ x ∈ d', x.2.fmt = .sparse := by
  obtain ⟨c, -, rfl⟩ := map_some h
  cases c
  · exact snoc_sparse hd (asArray_sparse he)
  · exact update_sparse (fun M hM => add_sparse hM (asArray_sparse he)) hd

theorem ofMatrices_sparse {a : Mat m n R} {dyn : List (Fn F A × Mat m n R)} {h : Ham F A m n R} (ha : a.fmt = .sparse)
    (hd : ∀ x ∈ dyn, x.2.fmt = .sparse) (e : ofMatrices env.hash [a] dyn = some h) : h.Sparse := by
  obtain ⟨d, h1, rfl⟩ := map_some e
  refine ⟨?_, foldlM_sparse (fun d e d' => initTerm_sparse) (fun x hx => by simp at hx) hd h1⟩
  simp [Mat.asArray, Mat.add, Mat.zero, ha, Fmt.add, Fmt.asArray]

theorem map_sparse {m' n' : Type} {g : Mat m n R → Mat m' n' R} {d : List (Fn F A × Mat m n R)}
    (hg : ∀ M : Mat m n R, M.fmt = .sparse → (g M).fmt = .sparse)
    (hd : ∀ x ∈ d, x.2.fmt = .sparse) : ∀ x ∈ d.map fun e => (e.1, g e.2), x.2.fmt = .sparse := by
  intro x hx
  obtain ⟨e, he, rfl⟩ := List.mem_map.1 hx
  exact hg _ (hd e he)

theorem astype_sparse {h new : Ham F A m n R} (hs : h.Sparse) (e : astype env h = some new) : new.Sparse :=
  ofMatrices_sparse hs.1 hs.2 e

theorem neg_sparse {h new : Ham F A m n R} (hs : h.Sparse) (e : neg env h = some new) : new.Sparse :=
  ofMatrices_sparse (a := h.static.neg) hs.1 (map_sparse (g := Mat.neg) (fun _ h => h) hs.2) e

theorem transpose_sparse {h : Ham F A m n R} {new : Ham F A n m R} (hs : h.Sparse) (e : transpose env h = some new) :
    new.Sparse :=
  ofMatrices_sparse hs.1 (map_sparse (g := Mat.trans) (fun _ h => h) hs.2) e

theorem addTerm_sparse {d d' : List (Fn F A × Mat m n R)} {e : Fn F A × Mat m n R} (hd : ∀ x ∈ d, x.2.fmt = .sparse)
    (he : e.2.fmt = .sparse) (h : addTerm env d e = some d') : ∀ x ∈ d', x.2.fmt = .sparse := by
  obtain ⟨c, -, rfl⟩ := map_some h
  cases c
  · exact snoc_sparse hd he
  · exact updatePop_sparse (fun M hM => add_sparse hM he) hd

theorem subTerm_sparse {d d' : List (Fn F A × Mat m n R)} {e : Fn F A × Mat m n R} (hd : ∀ x ∈ d, x.2.fmt = .sparse)
    (he : e.2.fmt = .sparse) (h : subTerm env d e = some d') : ∀ x ∈ d', x.2.fmt = .sparse := by
  obtain ⟨c, -, rfl⟩ := map_some h
  cases c
  · exact snoc_sparse hd he
  · exact updatePop_sparse (fun M hM => sub_sparse hM he) hd

theorem mergeTerm_sparse {d d' : List (Fn F A × Mat m n R)} {e : Fn F A × Mat m n R} (hd : ∀ x ∈ d, x.2.fmt = .sparse)
    (he : e.2.fmt = .sparse) (h : mergeTerm env d e = some d') : ∀ x ∈ d', x.2.fmt = .sparse := by
  obtain ⟨c, -, rfl⟩ := map_some h
  cases c
  · simp only [Bool.false_eq_true, if_false]
    split
    · exact hd
    · exact snoc_sparse hd he
  · exact updatePop_sparse (fun M hM => add_sparse hM he) hd

theorem addHam_sparse {h g new : Ham F A m n R} (hs : h.Sparse) (gs : g.Sparse) (e : addHam env h g = some new) :
    new.Sparse := by
  obtain ⟨h', hh, e⟩ := bind_some e
  obtain ⟨d, hd, rfl⟩ := map_some e
  have hs' := astype_sparse hs hh
  exact ⟨clean_sparse (add_sparse hs'.1 gs.1), foldlM_sparse (fun d e d' => addTerm_sparse) hs'.2 gs.2 hd⟩

theorem subHam_sparse {h g new : Ham F A m n R} (hs : h.Sparse) (gs : g.Sparse) (e : subHam env h g = some new) :
    new.Sparse := by
  obtain ⟨h', hh, e⟩ := bind_some e
  obtain ⟨d, hd, rfl⟩ := map_some e
  have hs' := astype_sparse hs hh
  exact ⟨clean_sparse (sub_sparse hs'.1 gs.1), foldlM_sparse (fun d e d' => subTerm_sparse) hs'.2 gs.2 hd⟩

theorem filter_sparse {p : Fn F A × Mat m n R → Bool} {d : List (Fn F A × Mat m n R)}
    (hd : ∀ x ∈ d, x.2.fmt = .sparse) : ∀ x ∈ d.filter p, x.2.fmt = .sparse :=
  fun x hx => hd x (List.mem_filter.1 hx).1

theorem mulScalar_sparse {c : R} {h new : Ham F A m n R} (hs : h.Sparse) (e : mulScalar env c h = some new) :
    new.Sparse := by
  obtain ⟨h', hh, rfl⟩ := map_some e
  have hs' := astype_sparse hs hh
  exact ⟨clean_sparse hs'.1, filter_sparse (map_sparse (fun _ h => h) hs'.2)⟩

end Containers

theorem conjugate_sparse {h new : Ham F A m n R} (hs : h.Sparse) (e : Model.Ham.conjugate env h = some new) :
    new.Sparse := by
  obtain ⟨d, hd, e⟩ := bind_some e
  refine ofMatrices_sparse (a := h.static.conj) hs.1 ?_ e
  have : ∀ {l d : List (Fn F A × Mat m n R)}, (∀ x ∈ l, x.2.fmt = .sparse) →
      l.mapM (fun e => (Model.Drive.conjugate e.1).map fun f => (f, e.2.conj)) = some d → ∀ x ∈ d, x.2.fmt = .sparse := by
    intro l
    induction l with
    | nil => intro d _ h; obtain rfl : [] = d := by simpa using h
             simp
    | cons y l ih =>
      intro d hl h
      rw [List.mapM_cons] at h
      obtain ⟨x, hx, h⟩ := bind_some h
      obtain ⟨z, hz, h⟩ := bind_some h
      obtain rfl : x :: z = d := by simpa using h
      obtain ⟨f, -, rfl⟩ := map_some hx
      intro w hw
      rcases List.mem_cons.1 hw with rfl | hw
      · exact hl y (by simp)
      · exact ih (fun x h => hl x (by simp [h])) hz w hw
  exact this hs.2 hd

theorem getH_sparse {h : Ham F A m n R} {new : Ham F A n m R} (hs : h.Sparse) (e : getH env h = some new) :
    new.Sparse := by
  obtain ⟨g, hg, e⟩ := bind_some e
  exact transpose_sparse (conjugate_sparse hs hg) e

/-! ### Products of two hamiltonians -/

section Mul

variable [Fintype n]

/-- The products of pairs of terms. -/
theorem pairs_ok (hc : NoCollision env.hash S (b1 + b2)) :
    ∀ {l : List ((Fn F A × Mat n n R) × (Fn F A × Mat n n R))} {d : List (Fn F A × Mat n n R)},
      (∀ p ∈ l, Key S b1 p.1.1) → (∀ p ∈ l, Key S b2 p.2.1) →
      (l.mapM fun p => (Model.Drive.mul env.hash p.1.1 p.2.1).map fun f => (f, p.1.2.prod p.2.2)) = some d →
      Keys S (b1 + b2) d ∧
      dsum app t d = (l.map fun p => (call app p.1.1 t * call app p.2.1 t) • (p.1.2.val * p.2.2.val)).sum ∧
      wsum app t d ≤ (l.map fun p => ‖call app p.1.1 t‖ * ‖call app p.2.1 t‖).sum := by
  intro l
  induction l with
  | nil =>
    intro d _ _ h
    obtain rfl : [] = d := by simpa using h
    exact ⟨fun e h => by simp at h, by simp, by simp⟩
  | cons p l ih =>
    intro d h1 h2 h
    rw [List.mapM_cons] at h
    obtain ⟨x, hx, h⟩ := bind_some h
    obtain ⟨z, hz, h⟩ := bind_some h
    obtain rfl : x :: z = d := by simpa using h
    obtain ⟨f, hf, rfl⟩ := map_some hx
    obtain ⟨k1, e1, w1⟩ := ih (fun p h => h1 p (by simp [h])) (fun p h => h2 p (by simp [h])) hz
    have a1 := h1 p (by simp)
    have a2 := h2 p (by simp)
    have hp := Proof.Drive.mul_prod (app := app) hc a1.2.2 a2.2.2 ⟨a1.1, a1.2.1.trans (by omega)⟩
      ⟨a2.1, a2.2.1.trans (by omega)⟩ hf
    refine ⟨?_, ?_, ?_⟩
    · intro e he
      rcases List.mem_cons.1 he with rfl | he
      · refine ⟨fun q hq => (hp.sub q hq).elim (a1.1 q) (a2.1 q), ?_, hp.pos⟩
        have := hp.deg
        have := a1.2.1
        have := a2.2.1
        show degree f ≤ b1 + b2
        omega
      · exact k1 e he
    · rw [dsum_cons, e1, List.map_cons, List.sum_cons, hp.val]; rfl
    · rw [wsum_cons, List.map_cons, List.sum_cons, hp.val]
      exact add_le_add (norm_mul_le _ _) w1

theorem pairs_sum (d d' : List (Fn F A × Mat n n R)) :
    ((d.flatMap fun e => d'.map fun e' => (e, e')).map fun p =>
      (call app p.1.1 t * call app p.2.1 t) • (p.1.2.val * p.2.2.val)).sum = dsum app t d * dsum app t d' := by
  induction d with
  | nil => simp
  | cons e d ih =>
    rw [List.flatMap_cons, List.map_append, List.sum_append, ih, dsum_cons, Matrix.add_mul]
    congr 1
    induction d' with
    | nil => simp
    | cons e' d' ih' =>
      rw [List.map_cons, List.map_cons, List.sum_cons, dsum_cons, Matrix.mul_add]
      congr 1
      · simp only [Matrix.smul_mul, Matrix.mul_smul, smul_smul, mul_comm (call app e'.1 t)]
      · rw [List.map_map]
        clear ih ih'
        induction d' with
        | nil => simp
        | cons e' d' ih' =>
          rw [List.map_cons, List.sum_cons, dsum_cons, Matrix.mul_add, ih']
          congr 1
          simp only [Function.comp, Matrix.smul_mul, Matrix.mul_smul, smul_smul, mul_comm (call app e'.1 t)]

theorem pairs_weight (d d' : List (Fn F A × Mat n n R)) :
    ((d.flatMap fun e => d'.map fun e' => (e, e')).map fun p =>
      ‖call app p.1.1 t‖ * ‖call app p.2.1 t‖).sum = wsum app t d * wsum app t d' := by
  induction d with
  | nil => simp
  | cons e d ih =>
    rw [List.flatMap_cons, List.map_append, List.sum_append, ih, wsum_cons, add_mul]
    congr 1
    rw [List.map_map]
    clear ih
    induction d' with
    | nil => simp
    | cons e' d' ih' =>
      rw [List.map_cons, List.sum_cons, wsum_cons, mul_add, ih']
      rfl

theorem imulDynamic_ok (hc : NoCollision env.hash S (b1 + b2)) (ht : Threshold env tol) (h0 : 0 ≤ tol)
    {h g new : Ham F A n n R} (hk : Keys S b1 h.dynamic) (gk : Keys S b2 g.dynamic)
    (e : imulDynamic env h g = some new) :
    Keys S (b1 + b2) new.dynamic ∧
      Close (tol * ((1 + wsum app t h.dynamic) * (1 + wsum app t g.dynamic))) (toMatrix app new t)
        (toMatrix app h t * toMatrix app g t) := by
  obtain ⟨d1, hd1, e⟩ := bind_some e
  obtain ⟨d2, hd2, rfl⟩ := map_some e
  obtain ⟨l, hl, hd2⟩ := bind_some hd2
  have hk' : Keys S (b1 + b2) h.dynamic := hk.mono (by omega)
  have gk' : Keys S (b1 + b2) g.dynamic := gk.mono (by omega)
  obtain ⟨k0, c0⟩ := staticTerm_sum (app := app) (t := t) ht h0 (d := []) (fun e h => by simp at h)
    (keys_map (fun M => h.static.prod M) gk')
  obtain ⟨k1, c1⟩ := foldlM_sum (app := app) (t := t) (mergeTerm_ok hc ht h0) k0
    (keys_map (fun M => M.prod g.static) hk') hd1
  obtain ⟨kl, sl, wl⟩ := pairs_ok (app := app) (t := t) hc
    (fun p hp => by
      obtain ⟨e, he, hp⟩ := List.mem_flatMap.1 hp
      obtain ⟨e', he', rfl⟩ := List.mem_map.1 hp
      exact hk e he)
    (fun p hp => by
      obtain ⟨e, he, hp⟩ := List.mem_flatMap.1 hp
      obtain ⟨e', he', rfl⟩ := List.mem_map.1 hp
      exact gk e' he') hl
  obtain ⟨k2, c2⟩ := foldlM_sum (app := app) (t := t) (mergeTerm_ok hc ht h0) k1 kl hd2
  rw [sum_id] at c1 c2
  rw [wsum_map, dsum_map (mulL h.static.val) _ (fun _ => rfl), dsum_nil, zero_add] at c0
  rw [wsum_map (fun M => M.prod g.static), dsum_map (mulR g.static.val) (fun M => M.prod g.static) (fun _ => rfl)] at c1
  rw [sl, pairs_sum] at c2
  rw [pairs_weight] at wl
  refine ⟨k2, ?_⟩
  have t1 := c1.trans (c0.add (close_refl _))
  have t2 := c2.trans (t1.add (close_refl _))
  have t3 := (close_refl (h.static.val * g.static.val)).add t2
  rw [toMatrix_eq, toMatrix_eq, toMatrix_eq]
  have hval : (h.static.val + dsum app t h.dynamic) * (g.static.val + dsum app t g.dynamic) =
      h.static.val * g.static.val + (mulL h.static.val (dsum app t g.dynamic) + mulR g.static.val (dsum app t h.dynamic) +
        dsum app t h.dynamic * dsum app t g.dynamic) := by
    rw [Matrix.add_mul, Matrix.mul_add, Matrix.mul_add]
    simp only [mulL, mulR, LinearMap.coe_mk, AddHom.coe_mk]
    abel
  rw [hval]
  refine t3.mono ?_
  have hw := mul_le_mul_of_nonneg_left wl h0
  nlinarith

theorem Ham.ext_dyn {h : Ham F A n n R} (hd : h.dynamic = []) : toMatrix app h t = h.static.val := by
  rw [toMatrix_eq, hd]; simp

/-- As `mulSparse_ok`, for a sparse left operand. -/
theorem mulSparse_ok' (hc : NoCollision env.hash S b) (ht : Threshold env tol) (h0 : 0 ≤ tol) {a : Mat n n R}
    {h new : Ham F A n n R} (hk : Keys S b h.dynamic) (hs : h.Sparse) (e : mulSparse env h a = some new) :
    Keys S b new.dynamic ∧
      Close (tol * (1 + wsum app t h.dynamic)) (toMatrix app new t) (toMatrix app h t * a.val) := by
  obtain ⟨h', hh, rfl⟩ := map_some e
  obtain ⟨k, v, -⟩ := astype_ok (app := app) (t := t) hc hk hh
  have hs' := astype_sparse hs hh
  obtain ⟨k2, c2⟩ := mapped_ok (app := app) (t := t) ht h0 k (mulR a.val) (h'.static.star a) (fun M => M.star a)
    (star_val fun h => by simp [hs'.1] at h) (fun e he => star_val fun h => by simp [hs'.2 e he] at h)
  rw [← v]
  exact ⟨k2, c2.mono (weight_mono h0 hh)⟩

/-- The product of two hamiltonians, unless two dense matrices are multiplied. -/
theorem mulHam_ok (hc : NoCollision env.hash S (b1 + b2)) (ht : Threshold env tol) (h0 : 0 ≤ tol)
    {h g new : Ham F A n n R} (hk : Keys S b1 h.dynamic) (gk : Keys S b2 g.dynamic)
    (hf : h.Sparse ∨ g.Sparse ∨ (h.dynamic ≠ [] ∧ g.dynamic ≠ [])) (e : mulHam env h g = some new) :
    Keys S (b1 + b2) new.dynamic ∧
      Close (tol * ((1 + wsum app t h.dynamic) * (1 + wsum app t g.dynamic))) (toMatrix app new t)
        (toMatrix app h t * toMatrix app g t) := by
  have hk' : Keys S (b1 + b2) h.dynamic := hk.mono (by omega)
  have gk' : Keys S (b1 + b2) g.dynamic := gk.mono (by omega)
  have wh := wsum_nonneg (app := app) (t := t) h.dynamic
  have wg := wsum_nonneg (app := app) (t := t) g.dynamic
  have hc1 : NoCollision env.hash S b1 := fun x y hx hy dx dy => hc x y hx hy (dx.trans (by omega)) (dy.trans (by omega))
  unfold mulHam at e
  split at e
  · rename_i hboth
    obtain ⟨h', hh, e⟩ := bind_some e
    obtain ⟨k, v, -⟩ := astype_ok (app := app) (t := t) hc1 hk hh
    have w' := astype_weight (app := app) (t := t) hh
    unfold imulHam at e
    split at e
    · obtain ⟨k2, c2⟩ := imulDynamic_ok (app := app) (t := t) hc ht h0 k gk e
      rw [← v]
      refine ⟨k2, c2.mono (mul_le_mul_of_nonneg_left ?_ h0)⟩
      exact mul_le_mul_of_nonneg_right (by linarith) (by linarith)
    · rename_i hn
      exfalso
      refine hn ⟨?_, hboth.2⟩
      intro hz
      obtain ⟨d, hd, rfl⟩ := map_some hh
      have hne : ∀ {l d d' : List (Fn F A × Mat n n R)}, (d ≠ [] ∨ l ≠ []) →
          l.foldlM (initTerm env.hash) d = some d' → d' ≠ [] := by
        intro l
        induction l with
        | nil => intro d d' h1 h2
                 obtain rfl : d = d' := by simpa using h2
                 simpa using h1
        | cons x l ih =>
          intro d d' _ h2
          rw [List.foldlM_cons] at h2
          obtain ⟨d1, h3, h4⟩ := bind_some h2
          refine ih (Or.inl ?_) h4
          obtain ⟨c, hm, rfl⟩ := map_some h3
          cases c
          · simp
          · simp only [if_true]
            intro hu
            have := congrArg List.length (update_weight (H := env.hash) (f := x.1) (g := fun M => M.add x.2.asArray) d)
            rw [hu] at this
            have hd0 : d = [] := by simpa using this.symm
            have := mem_some hm
            simp [hd0] at this
      exact hne (Or.inr hboth.1) hd hz
  · rename_i hnb
    have weaken1 : tol * (1 + wsum app t h.dynamic) ≤ tol * ((1 + wsum app t h.dynamic) * (1 + wsum app t g.dynamic)) :=
      mul_le_mul_of_nonneg_left (by nlinarith) h0
    have weaken2 : tol * (1 + wsum app t g.dynamic) ≤ tol * ((1 + wsum app t h.dynamic) * (1 + wsum app t g.dynamic)) :=
      mul_le_mul_of_nonneg_left (by nlinarith) h0
    have hmul : ∀ {new}, g.dynamic = [] → mulSparse env h g.static = some new → Keys S (b1 + b2) new.dynamic ∧
      Close (tol * ((1 + wsum app t h.dynamic) * (1 + wsum app t g.dynamic))) (toMatrix app new t)
        (toMatrix app h t * toMatrix app g t) := by
      intro new hg e
      rw [Ham.ext_dyn hg]
      rcases hf with hf | hf | hf
      · obtain ⟨k2, c2⟩ := mulSparse_ok' (app := app) (t := t) hc ht h0 hk' hf e
        exact ⟨k2, c2.mono weaken1⟩
      · obtain ⟨k2, c2⟩ := mulSparse_ok (app := app) (t := t) hc ht h0 hk' (by simp [hf.1]) e
        exact ⟨k2, c2.mono weaken1⟩
      · exact (hnb hf).elim
    split at e
    · rename_i hh
      exact hmul (by by_contra hg; exact hnb ⟨hh, hg⟩) e
    · rename_i hh
      have hh : h.dynamic = [] := by by_contra hx; exact hh hx
      split at e
      · rw [Ham.ext_dyn hh]
        obtain ⟨k2, c2⟩ := rmulSparse_ok (app := app) (t := t) hc ht h0 gk' (fun ha => by
          rcases hf with hf | hf | hf
          · simp [hf.1] at ha
          · exact hf.1
          · exact (hnb hf).elim) e
        exact ⟨k2, c2.mono weaken2⟩
      · rename_i hg
        exact hmul (by by_contra hx; exact hg hx) e

theorem mulSparse_sparse {a : Mat n n R} {h new : Ham F A n n R} (hs : h.Sparse) (ha : a.fmt = .sparse)
    (e : mulSparse env h a = some new) : new.Sparse := by
  obtain ⟨h', hh, rfl⟩ := map_some e
  have hs' := astype_sparse hs hh
  exact ⟨clean_sparse (star_sparse hs'.1 ha), filter_sparse (map_sparse (fun _ h => star_sparse h ha) hs'.2)⟩

theorem rmulSparse_sparse {a : Mat n n R} {h new : Ham F A n n R} (hs : h.Sparse) (ha : a.fmt = .sparse)
    (e : rmulSparse env a h = some new) : new.Sparse := by
  obtain ⟨h', hh, e⟩ := bind_some e
  obtain ⟨d, hd, rfl⟩ := map_some e
  have hs' := astype_sparse hs hh
  refine ⟨clean_sparse (star_sparse ha hs'.1), ?_⟩
  rw [mapM_some hd]
  exact filter_sparse (map_sparse (fun _ h => prod_sparse ha h) hs'.2)

theorem imulDynamic_sparse {h g new : Ham F A n n R} (hs : h.Sparse) (gs : g.Sparse)
    (e : imulDynamic env h g = some new) : new.Sparse := by
  obtain ⟨d1, hd1, e⟩ := bind_some e
  obtain ⟨d2, hd2, rfl⟩ := map_some e
  obtain ⟨l, hl, hd2⟩ := bind_some hd2
  refine ⟨prod_sparse hs.1 gs.1, foldlM_sparse (fun d e d' => mergeTerm_sparse)
    (foldlM_sparse (fun d e d' => mergeTerm_sparse) ?_ (map_sparse (fun _ h => prod_sparse h gs.1) hs.2) hd1) ?_ hd2⟩
  · have : ∀ {l d : List (Fn F A × Mat n n R)}, (∀ x ∈ d, x.2.fmt = .sparse) → (∀ x ∈ l, x.2.fmt = .sparse) →
        ∀ x ∈ l.foldl (staticTerm env) d, x.2.fmt = .sparse := by
      intro l
      induction l with
      | nil => exact fun hd _ => hd
      | cons y l ih =>
        intro d hd hl
        rw [List.foldl_cons]
        refine ih ?_ (fun x h => hl x (by simp [h]))
        unfold staticTerm
        split
        · exact hd
        · exact snoc_sparse hd (hl y (by simp))
    exact this (fun x h => by simp at h) (map_sparse (fun _ h => prod_sparse hs.1 h) gs.2)
  · have : ∀ {l : List ((Fn F A × Mat n n R) × (Fn F A × Mat n n R))} {d : List (Fn F A × Mat n n R)},
        (∀ p ∈ l, p.1.2.fmt = .sparse ∧ p.2.2.fmt = .sparse) →
        (l.mapM fun p => (Model.Drive.mul env.hash p.1.1 p.2.1).map fun f => (f, p.1.2.prod p.2.2)) = some d →
        ∀ x ∈ d, x.2.fmt = .sparse := by
      intro l
      induction l with
      | nil => intro d _ h; obtain rfl : [] = d := by simpa using h
               simp
      | cons p l ih =>
        intro d hp h
        rw [List.mapM_cons] at h
        obtain ⟨x, hx, h⟩ := bind_some h
        obtain ⟨z, hz, h⟩ := bind_some h
        obtain rfl : x :: z = d := by simpa using h
        obtain ⟨f, -, rfl⟩ := map_some hx
        intro w hw
        rcases List.mem_cons.1 hw with rfl | hw
        · exact prod_sparse (hp p (by simp)).1 (hp p (by simp)).2
        · exact ih (fun p h => hp p (by simp [h])) hz w hw
    refine this (fun p hp => ?_) hl
    obtain ⟨e, he, hp⟩ := List.mem_flatMap.1 hp
    obtain ⟨e', he', rfl⟩ := List.mem_map.1 hp
    exact ⟨hs.2 e he, gs.2 e' he'⟩

theorem mulHam_sparse {h g new : Ham F A n n R} (hs : h.Sparse) (gs : g.Sparse) (e : mulHam env h g = some new) :
    new.Sparse := by
  unfold mulHam at e
  split at e
  · rename_i hboth
    obtain ⟨h', hh, e⟩ := bind_some e
    have hs' := astype_sparse hs hh
    unfold imulHam at e
    split at e
    · exact imulDynamic_sparse hs' gs e
    · rename_i hn
      split at e
      · rename_i h1
        exact (hn ⟨h1, hboth.2⟩).elim
      · rename_i h1
        split at e
        · obtain ⟨gT, hgT, e⟩ := bind_some e
          obtain ⟨x, hx, e⟩ := bind_some e
          obtain ⟨d, hd, rfl⟩ := map_some hx
          have gs' := transpose_sparse gs hgT
          refine transpose_sparse ⟨clean_sparse (star_sparse gs'.1 (c := h'.static.trans) hs'.1), ?_⟩ e
          rw [mapM_some hd]
          exact filter_sparse (map_sparse (fun _ h => prod_sparse hs'.1 h) gs'.2)
        · rename_i h2
          exact (h2 hboth.2).elim
  · split at e
    · exact mulSparse_sparse hs gs.1 e
    · split at e
      · exact rmulSparse_sparse gs hs.1 e
      · exact mulSparse_sparse hs gs.1 e

/-! ### Expressions -/

omit [Fintype n] [StarRing R] [NormedCommRing R] in
theorem noCollision_mono {H : PyHash F A} (hc : NoCollision H S b) (h : b1 ≤ b) : NoCollision H S b1 :=
  fun x y hx hy dx dy => hc x y hx hy (dx.trans h) (dy.trans h)

theorem exact_close {w : ℝ} {a c : Matrix m n R} (h : Close (0 * w) a c) : a = c := by
  rw [zero_mul] at h; exact eq_of_close h

variable [DecidableEq n]

theorem pow_ok (ht : Threshold env 0) {h : Ham F A n n R} (hs : h.Sparse) (hk : Keys S b h.dynamic) :
    ∀ (p : Nat) {new : Ham F A n n R}, NoCollision env.hash S (p * b) → pow env h p = some new →
      Keys S (p * b) new.dynamic ∧ new.Sparse ∧ toMatrix app new t = toMatrix app h t ^ p
  | 0, new, _, e => by simp [pow] at e
  | 1, new, _, e => by
    obtain rfl : h = new := by simpa [pow] using e
    rw [one_mul, pow_one]
    exact ⟨hk, hs, rfl⟩
  | p + 2, new, hc, e => by
    rw [pow] at e
    obtain ⟨x, hx, e⟩ := bind_some e
    obtain ⟨k1, s1, v1⟩ := pow_ok ht hs hk (p + 1) (noCollision_mono hc (by nlinarith)) hx
    have heq : (p + 2) * b = (p + 1) * b + b := by ring
    rw [heq] at hc ⊢
    obtain ⟨k2, c2⟩ := mulHam_ok (app := app) (t := t) hc ht le_rfl k1 hk (.inl s1) e
    exact ⟨k2, mulHam_sparse s1 hs e, by rw [exact_close c2, v1, pow_succ (toMatrix app h t) (p + 1)]⟩

theorem build_ok {ι : Type} (ht : Threshold env 0) {h : ι → Ham F A n n R} {d : ι → Nat} (hs : ∀ i, (h i).Sparse)
    (hk : ∀ i, Keys S (d i) (h i).dynamic) : ∀ (e : Spec.TimeOp.Expr ι R) {new : Ham F A n n R},
      NoCollision env.hash S (e.degree d) → Model.Ham.build env h e = some new →
      Keys S (e.degree d) new.dynamic ∧ new.Sparse ∧ toMatrix app new t = e.meaning (fun i => toMatrix app (h i)) t
  | .leaf i, new, _, e => by
    obtain rfl : h i = new := by simpa [Model.Ham.build] using e
    exact ⟨hk i, hs i, rfl⟩
  | .add x y, new, hc, e => by
    obtain ⟨a, ha, e⟩ := bind_some e
    obtain ⟨c, hb, e⟩ := bind_some e
    rw [Expr.degree] at hc ⊢
    obtain ⟨k1, s1, v1⟩ := build_ok ht hs hk x (noCollision_mono hc (le_max_left _ _)) ha
    obtain ⟨k2, s2, v2⟩ := build_ok ht hs hk y (noCollision_mono hc (le_max_right _ _)) hb
    obtain ⟨k, v⟩ := addHam_ok (app := app) (t := t) hc ht le_rfl (k1.mono (le_max_left _ _))
      (k2.mono (le_max_right _ _)) e
    exact ⟨k, addHam_sparse s1 s2 e, by rw [exact_close v, v1, v2]; rfl⟩
  | .sub x y, new, hc, e => by
    obtain ⟨a, ha, e⟩ := bind_some e
    obtain ⟨c, hb, e⟩ := bind_some e
    rw [Expr.degree] at hc ⊢
    obtain ⟨k1, s1, v1⟩ := build_ok ht hs hk x (noCollision_mono hc (le_max_left _ _)) ha
    obtain ⟨k2, s2, v2⟩ := build_ok ht hs hk y (noCollision_mono hc (le_max_right _ _)) hb
    obtain ⟨k, v⟩ := subHam_ok (app := app) (t := t) hc ht le_rfl (k1.mono (le_max_left _ _))
      (k2.mono (le_max_right _ _)) e
    exact ⟨k, subHam_sparse s1 s2 e, by rw [exact_close v, v1, v2]; rfl⟩
  | .neg x, new, hc, e => by
    obtain ⟨a, ha, e⟩ := bind_some e
    obtain ⟨k1, s1, v1⟩ := build_ok ht hs hk x hc ha
    obtain ⟨k, v⟩ := neg_ok (app := app) (t := t) hc k1 e
    exact ⟨k, neg_sparse s1 e, by rw [v, v1]; rfl⟩
  | .scale c x, new, hc, e => by
    obtain ⟨a, ha, e⟩ := bind_some e
    obtain ⟨k1, s1, v1⟩ := build_ok ht hs hk x hc ha
    obtain ⟨k, v⟩ := mulScalar_ok (app := app) (t := t) hc ht le_rfl k1 e
    exact ⟨k, mulScalar_sparse s1 e, by rw [exact_close v, v1]; rfl⟩
  | .mul x y, new, hc, e => by
    obtain ⟨a, ha, e⟩ := bind_some e
    obtain ⟨c, hb, e⟩ := bind_some e
    rw [Expr.degree] at hc ⊢
    obtain ⟨k1, s1, v1⟩ := build_ok ht hs hk x (noCollision_mono hc (Nat.le_add_right _ _)) ha
    obtain ⟨k2, s2, v2⟩ := build_ok ht hs hk y (noCollision_mono hc (Nat.le_add_left _ _)) hb
    obtain ⟨k, v⟩ := mulHam_ok (app := app) (t := t) hc ht le_rfl k1 k2 (.inl s1) e
    exact ⟨k, mulHam_sparse s1 s2 e, by rw [exact_close v, v1, v2]; rfl⟩
  | .pow x p, new, hc, e => by
    obtain ⟨a, ha, e⟩ := bind_some e
    rw [Expr.degree] at hc ⊢
    have hp : p ≠ 0 := fun h => by subst h; simp [pow] at e
    obtain ⟨k1, s1, v1⟩ := build_ok ht hs hk x (noCollision_mono hc (Nat.le_mul_of_pos_left _ (by omega))) ha
    obtain ⟨k, s, v⟩ := pow_ok (app := app) (t := t) ht s1 k1 p hc e
    exact ⟨k, s, by rw [v, v1]; rfl⟩
  | .transpose x, new, hc, e => by
    obtain ⟨a, ha, e⟩ := bind_some e
    obtain ⟨k1, s1, v1⟩ := build_ok ht hs hk x hc ha
    obtain ⟨k, v, -⟩ := transpose_ok (app := app) (t := t) hc k1 e
    exact ⟨k, transpose_sparse s1 e, by rw [v, v1]; rfl⟩
  | .conj x, new, hc, e => by
    obtain ⟨a, ha, e⟩ := bind_some e
    obtain ⟨k1, s1, v1⟩ := build_ok ht hs hk x hc ha
    obtain ⟨k, v⟩ := conjugate_ok (app := app) (t := t) hc k1 e
    exact ⟨k, conjugate_sparse s1 e, by rw [v, v1]; rfl⟩
  | .adjoint x, new, hc, e => by
    obtain ⟨a, ha, e⟩ := bind_some e
    obtain ⟨k1, s1, v1⟩ := build_ok ht hs hk x hc ha
    obtain ⟨k, v⟩ := getH_ok (app := app) (t := t) hc k1 e
    exact ⟨k, getH_sparse s1 e, by rw [v, v1]; rfl⟩

end Mul

/-! ### No exceptions -/

section Return

open Proof.Drive (AllBase hash_some mul_some mul_base)

/-- No conjugated functions among the keys. -/
def BaseKeys (d : List (Fn F A × Mat m n R)) : Prop := ∀ e ∈ d, AllBase e.1

omit [NormedCommRing R] [StarRing R] in
theorem base_snoc {d : List (Fn F A × Mat m n R)} {e : Fn F A × Mat m n R} (hd : BaseKeys d) (he : AllBase e.1) :
    BaseKeys (d ++ [e]) := by
  intro x hx
  rcases List.mem_append.1 hx with hx | hx
  · exact hd x hx
  · rw [List.mem_singleton.1 hx]; exact he

omit [NormedCommRing R] [StarRing R] in
theorem update_base {H : PyHash F A} {f : Fn F A} {g : Mat m n R → Mat m n R} {d : List (Fn F A × Mat m n R)}
    (hd : BaseKeys d) : BaseKeys (update H f g d) := by
  induction d with
  | nil => exact hd
  | cons x d ih =>
    rw [update]
    have hd' : BaseKeys d := fun e h => hd e (by simp [h])
    split
    · intro e he
      rcases List.mem_cons.1 he with rfl | he
      · exact hd x (by simp)
      · exact hd' e he
    · intro e he
      rcases List.mem_cons.1 he with rfl | he
      · exact hd _ (by simp)
      · exact ih hd' e he

omit [NormedCommRing R] [StarRing R] in
theorem updatePop_base {H : PyHash F A} {tiny : Matrix m n R → Bool} {f : Fn F A} {g : Mat m n R → Mat m n R}
    {d : List (Fn F A × Mat m n R)} (hd : BaseKeys d) : BaseKeys (updatePop H tiny f g d) := by
  induction d with
  | nil => exact hd
  | cons x d ih =>
    rw [updatePop]
    have hd' : BaseKeys d := fun e h => hd e (by simp [h])
    split
    · split
      · exact hd'
      · intro e he
        rcases List.mem_cons.1 he with rfl | he
        · exact hd x (by simp)
        · exact hd' e he
    · intro e he
      rcases List.mem_cons.1 he with rfl | he
      · exact hd _ (by simp)
      · exact ih hd' e he

omit [NormedCommRing R] [StarRing R] in
theorem mem_base {H : PyHash F A} {f : Fn F A} (hf : AllBase f) (d : List (Fn F A × Mat m n R)) :
    ∃ c, mem H f d = some c := by
  obtain ⟨k, hk⟩ := hash_some (H := H) hf
  exact ⟨_, by rw [mem, hk]; rfl⟩

omit [NormedCommRing R] [StarRing R] in
theorem foldlM_base {step : List (Fn F A × Mat m n R) → Fn F A × Mat m n R → Option (List (Fn F A × Mat m n R))}
    (hs : ∀ d e, BaseKeys d → AllBase e.1 → ∃ d', step d e = some d' ∧ BaseKeys d') :
    ∀ {l d : List (Fn F A × Mat m n R)}, BaseKeys d → BaseKeys l → ∃ d', l.foldlM step d = some d' ∧ BaseKeys d'
  | [], d, hd, _ => ⟨d, rfl, hd⟩
  | e :: l, d, hd, hl => by
    obtain ⟨d1, h1, b1⟩ := hs d e hd (hl e (by simp))
    obtain ⟨d2, h2, b2⟩ := foldlM_base hs (l := l) b1 (fun x hx => hl x (by simp [hx]))
    exact ⟨d2, by rw [List.foldlM_cons, h1]; exact h2, b2⟩

omit [StarRing R] in
theorem initTerm_base (d : List (Fn F A × Mat m n R)) (e : Fn F A × Mat m n R) (hd : BaseKeys d) (he : AllBase e.1) :
    ∃ d', initTerm env.hash d e = some d' ∧ BaseKeys d' := by
  obtain ⟨c, hc⟩ := mem_base (H := env.hash) he d
  refine ⟨_, by rw [initTerm, hc]; rfl, ?_⟩
  cases c
  · exact base_snoc (e := (e.1, e.2.asArray)) hd he
  · exact update_base hd

omit [StarRing R] in
theorem addTerm_base (d : List (Fn F A × Mat m n R)) (e : Fn F A × Mat m n R) (hd : BaseKeys d) (he : AllBase e.1) :
    ∃ d', addTerm env d e = some d' ∧ BaseKeys d' := by
  obtain ⟨c, hc⟩ := mem_base (H := env.hash) he d
  refine ⟨_, by rw [addTerm, hc]; rfl, ?_⟩
  cases c
  · exact base_snoc hd he
  · exact updatePop_base hd

omit [StarRing R] in
theorem subTerm_base (d : List (Fn F A × Mat m n R)) (e : Fn F A × Mat m n R) (hd : BaseKeys d) (he : AllBase e.1) :
    ∃ d', subTerm env d e = some d' ∧ BaseKeys d' := by
  obtain ⟨c, hc⟩ := mem_base (H := env.hash) he d
  refine ⟨_, by rw [subTerm, hc]; rfl, ?_⟩
  cases c
  · exact base_snoc (e := (e.1, e.2.neg)) hd he
  · exact updatePop_base hd

omit [StarRing R] in
theorem mergeTerm_base (d : List (Fn F A × Mat m n R)) (e : Fn F A × Mat m n R) (hd : BaseKeys d) (he : AllBase e.1) :
    ∃ d', mergeTerm env d e = some d' ∧ BaseKeys d' := by
  obtain ⟨c, hc⟩ := mem_base (H := env.hash) he d
  refine ⟨_, by rw [mergeTerm, hc]; rfl, ?_⟩
  cases c
  · simp only [Bool.false_eq_true, if_false]
    split
    · exact hd
    · exact base_snoc hd he
  · exact updatePop_base hd

omit [NormedCommRing R] [StarRing R] in
theorem map_base {m' n' : Type} {g : Mat m n R → Mat m' n' R} {d : List (Fn F A × Mat m n R)} (hd : BaseKeys d) :
    BaseKeys (d.map fun e => (e.1, g e.2)) := by
  intro x hx
  obtain ⟨e, he, rfl⟩ := List.mem_map.1 hx
  exact hd e he

omit [NormedCommRing R] [StarRing R] in
theorem filter_base {p : Fn F A × Mat m n R → Bool} {d : List (Fn F A × Mat m n R)} (hd : BaseKeys d) :
    BaseKeys (d.filter p) := fun x hx => hd x (List.mem_filter.1 hx).1

omit [StarRing R] in
theorem ofMatrices_base {st : List (Mat m n R)} {dyn : List (Fn F A × Mat m n R)} (hd : BaseKeys dyn) :
    ∃ h, ofMatrices env.hash st dyn = some h ∧ BaseKeys h.dynamic := by
  obtain ⟨d, h1, b1⟩ := foldlM_base (initTerm_base (env := env)) (d := []) (fun e h => by simp at h) hd
  exact ⟨_, by rw [ofMatrices, h1]; rfl, b1⟩

omit [StarRing R] in
theorem addHam_base {h g : Ham F A m n R} (hh : BaseKeys h.dynamic) (hg : BaseKeys g.dynamic) :
    ∃ new, addHam env h g = some new ∧ BaseKeys new.dynamic := by
  obtain ⟨x, h1, b1⟩ := ofMatrices_base (env := env) (st := [h.static]) hh
  obtain ⟨d, h2, b2⟩ := foldlM_base (addTerm_base (env := env)) b1 hg
  exact ⟨_, by rw [addHam, astype, h1]; show Option.map _ _ = _; rw [h2]; rfl, b2⟩

omit [StarRing R] in
theorem subHam_base {h g : Ham F A m n R} (hh : BaseKeys h.dynamic) (hg : BaseKeys g.dynamic) :
    ∃ new, subHam env h g = some new ∧ BaseKeys new.dynamic := by
  obtain ⟨x, h1, b1⟩ := ofMatrices_base (env := env) (st := [h.static]) hh
  obtain ⟨d, h2, b2⟩ := foldlM_base (subTerm_base (env := env)) b1 hg
  exact ⟨_, by rw [subHam, astype, h1]; show Option.map _ _ = _; rw [h2]; rfl, b2⟩

omit [StarRing R] in
theorem mulScalar_base {c : R} {h : Ham F A m n R} (hh : BaseKeys h.dynamic) :
    ∃ new, mulScalar env c h = some new ∧ BaseKeys new.dynamic := by
  obtain ⟨x, h1, b1⟩ := ofMatrices_base (env := env) (st := [h.static]) hh
  exact ⟨_, by rw [mulScalar, astype, h1]; rfl, filter_base (map_base b1)⟩

variable [Fintype n]

theorem mulSparse_base {a : Mat n n R} {h : Ham F A n n R} (hh : BaseKeys h.dynamic) :
    ∃ new, mulSparse env h a = some new ∧ BaseKeys new.dynamic := by
  obtain ⟨x, h1, b1⟩ := ofMatrices_base (env := env) (st := [h.static]) hh
  exact ⟨_, by rw [mulSparse, astype, h1]; rfl, filter_base (map_base (g := fun M => M.star a) b1)⟩

theorem rmulSparse_base {a : Mat n n R} {h : Ham F A n n R} (hh : BaseKeys h.dynamic) (ha : a.fmt = .sparse) :
    ∃ new, rmulSparse env a h = some new ∧ BaseKeys new.dynamic := by
  obtain ⟨x, h1, b1⟩ := ofMatrices_base (env := env) (st := [h.static]) hh
  have h2 : ∀ d : List (Fn F A × Mat n n R), (d.mapM fun e => (a.dot e.2).map fun M => (e.1, M)) =
      some (d.map fun e => (e.1, a.prod e.2)) := by
    intro d
    induction d with
    | nil => rfl
    | cons e d ih => rw [List.mapM_cons, ih]; simp [Mat.dot, ha]
  exact ⟨_, by rw [rmulSparse, astype, h1]; show Option.map _ _ = _; rw [mapTermsM, h2]; rfl, filter_base (map_base b1)⟩

theorem pairs_base (hc : NoCollision env.hash S (b1 + b2)) :
    ∀ {l : List ((Fn F A × Mat n n R) × (Fn F A × Mat n n R))},
      (∀ p ∈ l, Key S b1 p.1.1) → (∀ p ∈ l, Key S b2 p.2.1) → (∀ p ∈ l, AllBase p.1.1) → (∀ p ∈ l, AllBase p.2.1) →
      ∃ d, (l.mapM fun p => (Model.Drive.mul env.hash p.1.1 p.2.1).map fun f => (f, p.1.2.prod p.2.2)) = some d ∧
        BaseKeys d
  | [], _, _, _, _ => ⟨[], rfl, fun e h => by simp at h⟩
  | p :: l, h1, h2, h3, h4 => by
    obtain ⟨d, hd, bd⟩ := pairs_base hc (l := l) (fun p h => h1 p (by simp [h])) (fun p h => h2 p (by simp [h]))
      (fun p h => h3 p (by simp [h])) (fun p h => h4 p (by simp [h]))
    have a1 := h1 p (by simp)
    have a2 := h2 p (by simp)
    have a3 := h3 p (by simp)
    have a4 := h4 p (by simp)
    obtain ⟨z, hz⟩ := mul_some hc (x := p.1.1) (o := p.2.1) a4.hashable ⟨a1.1, a1.2.1.trans (by omega)⟩
      ⟨a2.1, a2.2.1.trans (by omega)⟩
    refine ⟨(z, p.1.2.prod p.2.2) :: d, by rw [List.mapM_cons, hd, hz]; rfl, ?_⟩
    intro x hx
    rcases List.mem_cons.1 hx with rfl | hx
    · exact mul_base a3 a4 hz
    · exact bd x hx

theorem staticTerm_base : ∀ {l d : List (Fn F A × Mat n n R)}, BaseKeys d → BaseKeys l →
    BaseKeys (l.foldl (staticTerm env) d)
  | [], _, hd, _ => hd
  | e :: l, d, hd, hl => by
    rw [List.foldl_cons]
    refine staticTerm_base ?_ (fun x h => hl x (by simp [h]))
    unfold staticTerm
    split
    · exact hd
    · exact base_snoc hd (hl e (by simp))

theorem imulDynamic_base (hc : NoCollision env.hash S (b1 + b2)) {h g : Ham F A n n R} (hk : Keys S b1 h.dynamic)
    (gk : Keys S b2 g.dynamic) (hh : BaseKeys h.dynamic) (hg : BaseKeys g.dynamic) :
    ∃ new, imulDynamic env h g = some new ∧ BaseKeys new.dynamic := by
  obtain ⟨d1, h1, e1⟩ := foldlM_base (mergeTerm_base (env := env))
    (staticTerm_base (env := env) (d := []) (fun e h => by simp at h)
      (map_base (g := fun M => h.static.prod M) hg)) (map_base (g := fun M => M.prod g.static) hh)
  have hm : ∀ p ∈ (h.dynamic.flatMap fun e => g.dynamic.map fun e' => (e, e')), p.1 ∈ h.dynamic ∧ p.2 ∈ g.dynamic := by
    intro p hp
    obtain ⟨e, he, hp⟩ := List.mem_flatMap.1 hp
    obtain ⟨e', he', rfl⟩ := List.mem_map.1 hp
    exact ⟨he, he'⟩
  obtain ⟨l, hl, el⟩ := pairs_base hc (fun p hp => hk _ (hm p hp).1) (fun p hp => gk _ (hm p hp).2)
    (fun p hp => hh _ (hm p hp).1) (fun p hp => hg _ (hm p hp).2)
  obtain ⟨d2, h2, e2⟩ := foldlM_base (mergeTerm_base (env := env)) e1 el
  refine ⟨⟨h.static.prod g.static, d2⟩, ?_, e2⟩
  rw [imulDynamic, h1]
  show Option.map _ (Option.bind _ _) = _
  rw [hl]
  show Option.map _ (List.foldlM _ _ _) = _
  rw [h2]; rfl

theorem mulHam_base (hc : NoCollision env.hash S (b1 + b2)) {h g : Ham F A n n R} (hk : Keys S b1 h.dynamic)
    (gk : Keys S b2 g.dynamic) (hh : BaseKeys h.dynamic) (hg : BaseKeys g.dynamic) (hs : h.Sparse) :
    ∃ new, mulHam env h g = some new ∧ BaseKeys new.dynamic := by
  unfold mulHam
  split
  · rename_i hboth
    obtain ⟨x, hx, ex⟩ := ofMatrices_base (env := env) (st := [h.static]) hh
    have hc1 := noCollision_mono hc (Nat.le_add_right b1 b2)
    obtain ⟨k, -⟩ := astype_ok (app := fun _ _ (_ : Unit) => (0 : R)) (t := ()) hc1 hk hx
    have hs' := astype_sparse hs hx
    obtain ⟨new, hn, en⟩ := imulDynamic_base hc k gk ex hg
    rw [astype, hx]
    show ∃ new, imulHam env x g = some new ∧ _
    unfold imulHam
    split
    · exact ⟨new, hn, en⟩
    · rename_i hno
      have hx0 : x.dynamic = [] := by
        by_contra h0; exact hno ⟨h0, hboth.2⟩
      rw [if_neg (by simpa using hx0), if_pos hboth.2]
      obtain ⟨gT, h1, b1⟩ := ofMatrices_base (env := env) (st := [g.static.trans]) (map_base (g := Mat.trans) hg)
      have h2 : ∀ d : List (Fn F A × Mat n n R), (d.mapM fun e => (x.static.trans.dot e.2).map fun M => (e.1, M)) =
          some (d.map fun e => (e.1, x.static.trans.prod e.2)) := by
        intro d
        induction d with
        | nil => rfl
        | cons e d ih => rw [List.mapM_cons, ih]; simp [Mat.dot, Mat.trans, hs'.1]
      obtain ⟨y, h3, b3⟩ := ofMatrices_base (env := env)
        (st := [(clean env.tiny (gT.static.star x.static.trans)).trans]) (map_base (g := Mat.trans)
          (filter_base (p := fun e => !env.tiny e.2.val) (map_base (g := fun M => x.static.trans.prod M) b1)))
      refine ⟨y, ?_, b3⟩
      rw [transpose, h1]
      show Option.bind (imulSparse env gT x.static.trans) _ = _
      rw [imulSparse, mapTermsM, h2]
      exact h3
  · split
    · exact mulSparse_base hh
    · split
      · exact rmulSparse_base hg hs.1
      · exact mulSparse_base hh

theorem pow_base {h : Ham F A n n R} (ht : Threshold env 0) (hs : h.Sparse) (hk : Keys S b h.dynamic)
    (hh : BaseKeys h.dynamic) : ∀ p : Nat, NoCollision env.hash S ((p + 1) * b) →
      ∃ new, pow env h (p + 1) = some new ∧ BaseKeys new.dynamic
  | 0, _ => ⟨h, rfl, hh⟩
  | p + 1, hc => by
    classical
    obtain ⟨x, hx, ex⟩ := pow_base ht hs hk hh p (noCollision_mono hc (by nlinarith))
    obtain ⟨k, s, -⟩ := pow_ok (app := fun _ _ (_ : Unit) => (0 : R)) (t := ()) ht hs hk (p + 1)
      (noCollision_mono hc (by nlinarith)) hx
    have heq : (p + 1 + 1) * b = (p + 1) * b + b := by ring
    rw [heq] at hc
    obtain ⟨y, hy, ey⟩ := mulHam_base hc k hk ex hh s
    exact ⟨y, by rw [pow, hx]; exact hy, ey⟩

theorem build_base {ι : Type} [DecidableEq n] (ht : Threshold env 0) {h : ι → Ham F A n n R} {d : ι → Nat}
    (hs : ∀ i, (h i).Sparse) (hk : ∀ i, Keys S (d i) (h i).dynamic) (hb : ∀ i, BaseKeys (h i).dynamic) :
    ∀ (e : Spec.TimeOp.Expr ι R), e.Plain → NoCollision env.hash S (e.degree d) →
      ∃ new, Model.Ham.build env h e = some new ∧ BaseKeys new.dynamic := by
  have ok := fun e {new} hc hn => build_ok (app := fun _ _ (_ : Unit) => (0 : R)) (t := ()) ht hs hk e (new := new) hc hn
  intro e
  induction e with
  | leaf i => exact fun _ _ => ⟨_, rfl, hb i⟩
  | add x y ihx ihy =>
    intro hp hc
    obtain ⟨u, hu, bu⟩ := ihx hp.1 (noCollision_mono hc (le_max_left _ _))
    obtain ⟨v, hv, bv⟩ := ihy hp.2 (noCollision_mono hc (le_max_right _ _))
    obtain ⟨w, hw, bw⟩ := addHam_base (env := env) bu bv
    exact ⟨w, by rw [Model.Ham.build, hu, hv]; exact hw, bw⟩
  | sub x y ihx ihy =>
    intro hp hc
    obtain ⟨u, hu, bu⟩ := ihx hp.1 (noCollision_mono hc (le_max_left _ _))
    obtain ⟨v, hv, bv⟩ := ihy hp.2 (noCollision_mono hc (le_max_right _ _))
    obtain ⟨w, hw, bw⟩ := subHam_base (env := env) bu bv
    exact ⟨w, by rw [Model.Ham.build, hu, hv]; exact hw, bw⟩
  | neg x ih =>
    intro hp hc
    obtain ⟨u, hu, bu⟩ := ih hp hc
    obtain ⟨w, hw, bw⟩ := ofMatrices_base (env := env) (st := [u.static.neg]) (map_base (g := Mat.neg) bu)
    exact ⟨w, by rw [Model.Ham.build, hu]; exact hw, bw⟩
  | scale c x ih =>
    intro hp hc
    obtain ⟨u, hu, bu⟩ := ih hp hc
    obtain ⟨w, hw, bw⟩ := mulScalar_base (env := env) (c := c) bu
    exact ⟨w, by rw [Model.Ham.build, hu]; exact hw, bw⟩
  | mul x y ihx ihy =>
    intro hp hc
    have c1 := noCollision_mono hc (Nat.le_add_right _ _)
    have c2 := noCollision_mono hc (Nat.le_add_left _ _)
    obtain ⟨u, hu, bu⟩ := ihx hp.1 c1
    obtain ⟨v, hv, bv⟩ := ihy hp.2 c2
    obtain ⟨k1, s1, -⟩ := ok x c1 hu
    obtain ⟨k2, s2, -⟩ := ok y c2 hv
    obtain ⟨w, hw, bw⟩ := mulHam_base hc k1 k2 bu bv s1
    exact ⟨w, by rw [Model.Ham.build, hu, hv]; exact hw, bw⟩
  | pow x p ih =>
    intro hp hc
    obtain ⟨q, rfl⟩ := Nat.exists_eq_succ_of_ne_zero hp.2
    have c1 := noCollision_mono hc (Nat.le_mul_of_pos_left (x.degree d) (Nat.succ_pos q))
    obtain ⟨u, hu, bu⟩ := ih hp.1 c1
    obtain ⟨k1, s1, -⟩ := ok x c1 hu
    obtain ⟨w, hw, bw⟩ := pow_base ht s1 k1 bu q hc
    exact ⟨w, by rw [Model.Ham.build, hu]; exact hw, bw⟩
  | transpose x ih =>
    intro hp hc
    obtain ⟨u, hu, bu⟩ := ih hp hc
    obtain ⟨w, hw, bw⟩ := ofMatrices_base (env := env) (st := [u.static.trans]) (map_base (g := Mat.trans) bu)
    exact ⟨w, by rw [Model.Ham.build, hu]; exact hw, bw⟩
  | conj x => exact fun hp => hp.elim
  | adjoint x => exact fun hp => hp.elim

end Return

end Proof.Ham
