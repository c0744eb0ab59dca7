import Verif.Model.Consolidate
import Verif.Spec.OperatorLists
import Verif.Proof.Hamiltonian

namespace Proof.Consolidate
open Model.Consolidate Model.Ham Model.Drive Spec.TimeOp Proof.Ham

variable {O I F A T R K V : Type}

/-! ### Dictionaries -/

theorem upsert_sum {M : Type} [AddCommMonoid M] [DecidableEq K] (w : K → V → M) {k : K} {v : V} {g : V → V} {δ : M}
    (h0 : w k v = δ) (hg : ∀ x, w k (g x) = w k x + δ) (d : List (K × V)) :
    ((upsert k v g d).map fun e => w e.1 e.2).sum = (d.map fun e => w e.1 e.2).sum + δ := by
  induction d with
  | nil => simp [upsert, h0]
  | cons e d ih =>
    rw [upsert]
    split
    · rename_i h
      subst h
      simp only [List.map_cons, List.sum_cons, hg]
      abel
    · simp only [List.map_cons, List.sum_cons, ih]
      abel

theorem upsert_le [DecidableEq K] (w : K → V → ℝ) {k : K} {v : V} {g : V → V} {δ : ℝ}
    (h0 : w k v ≤ δ) (hg : ∀ x, w k (g x) ≤ w k x + δ) (d : List (K × V)) :
    ((upsert k v g d).map fun e => w e.1 e.2).sum ≤ (d.map fun e => w e.1 e.2).sum + δ := by
  induction d with
  | nil => simpa [upsert] using h0
  | cons e d ih =>
    rw [upsert]
    split
    · rename_i h
      subst h
      simp only [List.map_cons, List.sum_cons]
      linarith [hg e.2]
    · simp only [List.map_cons, List.sum_cons]
      linarith

theorem upsert_keys [DecidableEq K] {k : K} {v : V} {g : V → V} (d : List (K × V)) :
    (upsert k v g d).map Prod.fst = if k ∈ d.map Prod.fst then d.map Prod.fst else d.map Prod.fst ++ [k] := by
  induction d with
  | nil => simp [upsert]
  | cons e d ih =>
    rw [upsert]
    split
    · rename_i h
      simp [h]
    · rename_i h
      rw [List.map_cons, ih, List.map_cons]
      by_cases hk : k ∈ d.map Prod.fst
      · rw [if_pos hk, if_pos (by simp [hk])]
      · rw [if_neg hk, if_neg (by
          intro h'
          rcases List.mem_cons.1 h' with h' | h'
          · exact h h'.symm
          · exact hk h'), List.cons_append]

theorem upsert_nodup [DecidableEq K] {k : K} {v : V} {g : V → V} {d : List (K × V)} (h : (d.map Prod.fst).Nodup) :
    ((upsert k v g d).map Prod.fst).Nodup := by
  rw [upsert_keys]
  split
  · exact h
  · rename_i hk
    rw [List.nodup_append]
    exact ⟨h, by simp, by
      intro x hx y hy hxy
      rw [List.mem_singleton.1 hy] at hxy
      exact hk (hxy ▸ hx)⟩

variable {n : Type} [NormedCommRing R] [StarRing R]

/-! ### Gathering -/

theorem bonds_sum [DecidableEq I] (op : I → Matrix n n R) (l : List (R × I)) : ∀ d : List (I × R),
    ((l.foldl addBond d).map fun x => x.2 • op x.1).sum =
      (d.map fun x => x.2 • op x.1).sum + (l.map fun x => x.1 • op x.2).sum := by
  induction l with
  | nil => simp
  | cons x l ih =>
    intro d
    rw [List.foldl_cons, ih, addBond, upsert_sum (fun i (J : R) => J • op i) rfl (fun J => add_smul J x.1 (op x.2)),
      List.map_cons, List.sum_cons, add_assoc]

theorem bonds_length [DecidableEq I] (l : List (R × I)) : ∀ d : List (I × R),
    ((l.foldl addBond d).length : ℝ) ≤ d.length + l.length := by
  induction l with
  | nil => simp
  | cons x l ih =>
    intro d
    rw [List.foldl_cons]
    have h1 := ih (addBond d x)
    have h2 := upsert_le (fun (_ : I) (_ : R) => (1 : ℝ)) (k := x.2) (v := x.1) (g := fun J => J + x.1) (δ := 1) le_rfl
      (fun _ => by norm_num) d
    have h3 : ∀ d : List (I × R), (d.map fun _ => (1 : ℝ)).sum = d.length := by intro d; simp
    rw [h3, h3] at h2
    push_cast [List.length_cons]
    have h4 : ((addBond d x).length : ℝ) ≤ d.length + 1 := h2
    linarith

theorem gather_sum [DecidableEq K] [DecidableEq I] (op : K → I → Matrix n n R) (c : K → R)
    (l : List (K × List (R × I))) :
    ((gather l).map fun e => c e.1 • (e.2.map fun x => x.2 • op e.1 x.1).sum).sum =
      (l.map fun e => c e.1 • (e.2.map fun x => x.1 • op e.1 x.2).sum).sum := by
  have : ∀ (l : List (K × List (R × I))) (d : List (K × List (I × R))),
      ((l.foldl (fun d e => upsert e.1 (e.2.foldl addBond []) (fun x => e.2.foldl addBond x) d) d).map
        fun e => c e.1 • (e.2.map fun x => x.2 • op e.1 x.1).sum).sum =
      (d.map fun e => c e.1 • (e.2.map fun x => x.2 • op e.1 x.1).sum).sum +
        (l.map fun e => c e.1 • (e.2.map fun x => x.1 • op e.1 x.2).sum).sum := by
    intro l
    induction l with
    | nil => simp
    | cons e l ih =>
      intro d
      rw [List.foldl_cons, ih, upsert_sum (fun k (dd : List (I × R)) => c k • (dd.map fun x => x.2 • op k x.1).sum)
        (δ := c e.1 • (e.2.map fun x => x.1 • op e.1 x.2).sum) (by rw [bonds_sum]; simp)
        (fun dd => by rw [bonds_sum, smul_add]), List.map_cons, List.sum_cons, add_assoc]
  unfold gather; simpa using this l []

theorem gather_weight [DecidableEq K] [DecidableEq I] (ω : K → ℝ) (h0 : ∀ k, 0 ≤ ω k) (l : List (K × List (R × I))) :
    ((gather l).map fun e => ω e.1 * e.2.length).sum ≤ (l.map fun e => ω e.1 * e.2.length).sum := by
  have : ∀ (l : List (K × List (R × I))) (d : List (K × List (I × R))),
      ((l.foldl (fun d e => upsert e.1 (e.2.foldl addBond []) (fun x => e.2.foldl addBond x) d) d).map
        fun e => ω e.1 * e.2.length).sum ≤
      (d.map fun e => ω e.1 * (e.2.length : ℝ)).sum + (l.map fun e => ω e.1 * (e.2.length : ℝ)).sum := by
    intro l
    induction l with
    | nil => simp
    | cons e l ih =>
      intro d
      rw [List.foldl_cons, List.map_cons, List.sum_cons]
      refine (ih _).trans ?_
      have := upsert_le (fun k (dd : List (I × R)) => ω k * (dd.length : ℝ)) (k := e.1) (v := e.2.foldl addBond [])
        (g := fun x => e.2.foldl addBond x) (δ := ω e.1 * e.2.length)
        (by simpa using mul_le_mul_of_nonneg_left (bonds_length e.2 []) (h0 e.1))
        (fun dd => by rw [← mul_add]; exact mul_le_mul_of_nonneg_left (bonds_length e.2 dd) (h0 e.1)) d
      linarith
  unfold gather; simpa using this l []

/-! ### Dropping small couplings -/

variable {eps B : ℝ} {big : R → Bool}

theorem entries_close (hbig : ∀ J, big J = true ↔ ¬‖J‖ ≤ eps) (h0 : 0 ≤ eps) (hB0 : 0 ≤ B) (op : O → I → Matrix n n R)
    (o : O) (hB : ∀ i a c, ‖op o i a c‖ ≤ B) (d : List (I × R)) :
    Close (eps * B * d.length) (makeMatrix op (entries big o d)) ((d.map fun x => x.2 • op o x.1).sum) := by
  induction d with
  | nil => simpa [entries, makeMatrix] using close_refl _
  | cons x d ih =>
    have hl : (((x :: d).length : ℕ) : ℝ) = d.length + 1 := by push_cast [List.length_cons]; ring
    rw [List.map_cons, List.sum_cons, hl, mul_add, mul_one, add_comm]
    unfold entries makeMatrix
    rw [List.filter_cons]
    split
    · rw [List.map_cons, List.map_cons, List.sum_cons]
      exact (((close_refl _).mono (mul_nonneg h0 hB0)).add ih)
    · rename_i hx
      have hx : ‖x.2‖ ≤ eps := by
        by_contra h; exact hx ((hbig _).2 h)
      have h1 : Close (eps * B) (0 : Matrix n n R) (x.2 • op o x.1) := fun i j => by
        rw [Matrix.zero_apply, zero_sub, norm_neg, Matrix.smul_apply, smul_eq_mul]
        exact (norm_mul_le _ _).trans (mul_le_mul hx (hB _ _ _) (norm_nonneg _) h0)
      have := h1.add ih
      rwa [zero_add] at this

theorem smul_close {e : ℝ} {a c : Matrix n n R} (x : R) (h : Close e a c) : Close (‖x‖ * e) (x • a) (x • c) := by
  intro i j
  rw [Matrix.smul_apply, Matrix.smul_apply, ← smul_sub, smul_eq_mul]
  exact (norm_mul_le _ _).trans (mul_le_mul_of_nonneg_left (h i j) (norm_nonneg _))

theorem sum_close {α : Type} (l : List α) (f g : α → Matrix n n R) (e : α → ℝ) (h : ∀ x ∈ l, Close (e x) (f x) (g x)) :
    Close ((l.map e).sum) ((l.map f).sum) ((l.map g).sum) := by
  induction l with
  | nil => simpa using close_refl _
  | cons x l ih =>
    rw [List.map_cons, List.map_cons, List.map_cons, List.sum_cons, List.sum_cons, List.sum_cons]
    exact (h x (by simp)).add (ih fun y hy => h y (by simp [hy]))

theorem makeMatrix_append (op : O → I → Matrix n n R) (l k : List (O × I × R)) :
    makeMatrix op (l ++ k) = makeMatrix op l + makeMatrix op k := by simp [makeMatrix]

theorem makeMatrix_flatMap {α : Type} (op : O → I → Matrix n n R) (l : List α) (f : α → List (O × I × R)) :
    makeMatrix op (l.flatMap f) = (l.map fun x => makeMatrix op (f x)).sum := by
  induction l with
  | nil => simp [makeMatrix]
  | cons x l ih => rw [List.flatMap_cons, makeMatrix_append, ih, List.map_cons, List.sum_cons]

theorem sum_mul_left {α : Type} (l : List α) (c : ℝ) (f : α → ℝ) : (l.map fun x => c * f x).sum = c * (l.map f).sum := by
  induction l with
  | nil => simp
  | cons x l ih => simp [ih, mul_add]

/-- Number of bonds in a static list. -/
def count (l : List (O × List (R × I))) : Nat := (l.map fun e => e.2.length).sum

theorem count_real (l : List (O × List (R × I))) : (l.map fun e => (e.2.length : ℝ)).sum = count l := by
  unfold count
  induction l with
  | nil => simp
  | cons e l ih => simp [ih]

variable [DecidableEq O] [DecidableEq I]

theorem static_close (hbig : ∀ J, big J = true ↔ ¬‖J‖ ≤ eps) (h0 : 0 ≤ eps) (hB0 : 0 ≤ B) (op : O → I → Matrix n n R)
    (hB : ∀ o i a c, ‖op o i a c‖ ≤ B) (l : List (O × List (R × I))) :
    Close (eps * B * count l) (makeMatrix op (consolidateStatic big l)) (Spec.OpLists.static op l) := by
  have h1 := sum_close (gather l) (fun e => makeMatrix op (entries big e.1 e.2))
    (fun e => (e.2.map fun x => x.2 • op e.1 x.1).sum) (fun e => eps * B * e.2.length)
    (fun e _ => entries_close hbig h0 hB0 op e.1 (hB e.1) e.2)
  have h2 := gather_sum op (fun _ => (1 : R)) l
  simp only [one_smul] at h2
  rw [consolidateStatic, makeMatrix_flatMap]
  rw [h2] at h1
  refine h1.mono ?_
  rw [sum_mul_left]
  refine mul_le_mul_of_nonneg_left ?_ (mul_nonneg h0 hB0)
  have := gather_weight (R := R) (fun _ : O => 1) (fun _ => zero_le_one) l
  simp only [one_mul] at this
  rwa [count_real l] at this

variable [DecidableEq F] [DecidableEq A]

/-- The weight of a dynamic list: bonds times absolute value of the drive. -/
noncomputable def weight (app : F → List A → T → R) (t : T) (l : List (O × List (R × I) × F × List A)) : ℝ :=
  (l.map fun e => ‖app e.2.2.1 e.2.2.2 t‖ * e.2.1.length).sum

/-- The weight of the drives of a dynamic list. -/
noncomputable def drives (app : F → List A → T → R) (t : T) (l : List (O × List (R × I) × F × List A)) : ℝ :=
  (l.map fun e => ‖app e.2.2.1 e.2.2.2 t‖).sum

omit [DecidableEq O] [DecidableEq I] in
theorem regroup_sum (op : O → I → Matrix n n R) (big : R → Bool) (app : F → List A → T → R) (t : T)
    (l : List ((O × F × List A) × List (I × R))) :
    ((l.foldl (fun d e => upsert e.1.2 (entries big e.1.1 e.2) (fun x => x ++ entries big e.1.1 e.2) d) []).map
      fun e => app e.1.1 e.1.2 t • makeMatrix op e.2).sum =
    (l.map fun e => app e.1.2.1 e.1.2.2 t • makeMatrix op (entries big e.1.1 e.2)).sum := by
  have : ∀ (l : List ((O × F × List A) × List (I × R))) (d : List ((F × List A) × List (O × I × R))),
      ((l.foldl (fun d e => upsert e.1.2 (entries big e.1.1 e.2) (fun x => x ++ entries big e.1.1 e.2) d) d).map
        fun e => app e.1.1 e.1.2 t • makeMatrix op e.2).sum =
      (d.map fun e => app e.1.1 e.1.2 t • makeMatrix op e.2).sum +
        (l.map fun e => app e.1.2.1 e.1.2.2 t • makeMatrix op (entries big e.1.1 e.2)).sum := by
    intro l
    induction l with
    | nil => simp
    | cons e l ih =>
      intro d
      rw [List.foldl_cons, ih, upsert_sum (fun (k : F × List A) x => app k.1 k.2 t • makeMatrix op x) rfl
        (fun x => by rw [makeMatrix_append, smul_add]), List.map_cons, List.sum_cons, add_assoc]
  simpa using this l []

theorem dynamic_close (hbig : ∀ J, big J = true ↔ ¬‖J‖ ≤ eps) (h0 : 0 ≤ eps) (hB0 : 0 ≤ B) (op : O → I → Matrix n n R)
    (hB : ∀ o i a c, ‖op o i a c‖ ≤ B) (app : F → List A → T → R) (t : T)
    (l : List (O × List (R × I) × F × List A)) :
    Close (eps * B * weight app t l)
      (((consolidateDynamic big l).map fun e => app e.1.1 e.1.2 t • makeMatrix op e.2).sum)
      (Spec.OpLists.dynamic op app l t) := by
  rw [consolidateDynamic, regroup_sum]
  have h1 := sum_close (gather (l.map fun e => ((e.1, e.2.2.1, e.2.2.2), e.2.1)))
    (fun e => app e.1.2.1 e.1.2.2 t • makeMatrix op (entries big e.1.1 e.2))
    (fun e => app e.1.2.1 e.1.2.2 t • (e.2.map fun x => x.2 • op e.1.1 x.1).sum)
    (fun e => ‖app e.1.2.1 e.1.2.2 t‖ * (eps * B * e.2.length))
    (fun e _ => smul_close _ (entries_close hbig h0 hB0 op e.1.1 (hB e.1.1) e.2))
  have h2 := gather_sum (fun k : O × F × List A => op k.1) (fun k => app k.2.1 k.2.2 t)
    (l.map fun e => ((e.1, e.2.2.1, e.2.2.2), e.2.1))
  have h3 := gather_weight (R := R) (fun k : O × F × List A => ‖app k.2.1 k.2.2 t‖) (fun _ => norm_nonneg _)
    (l.map fun e => ((e.1, e.2.2.1, e.2.2.2), e.2.1))
  rw [List.map_map] at h2 h3
  rw [h2] at h1
  refine h1.mono ?_
  have h4 : ∀ x : List ((O × F × List A) × List (I × R)),
      (x.map fun e => ‖app e.1.2.1 e.1.2.2 t‖ * (eps * B * e.2.length)).sum =
        eps * B * (x.map fun e => ‖app e.1.2.1 e.1.2.2 t‖ * (e.2.length : ℝ)).sum := by
    intro x
    rw [← sum_mul_left]
    congr 1
    refine List.map_congr_left fun e _ => by ring
  rw [h4]
  exact mul_le_mul_of_nonneg_left h3 (mul_nonneg h0 hB0)

/-! ### Distinct drives -/

omit [NormedCommRing R] [StarRing R] in
theorem regroup_nodup (big : R → Bool) (l : List ((O × F × List A) × List (I × R))) :
    ∀ d : List ((F × List A) × List (O × I × R)), (d.map Prod.fst).Nodup →
    ((l.foldl (fun d e => upsert e.1.2 (entries big e.1.1 e.2) (fun x => x ++ entries big e.1.1 e.2) d) d).map
      Prod.fst).Nodup := by
  induction l with
  | nil => exact fun _ h => h
  | cons e l ih => exact fun d h => ih _ (upsert_nodup h)

omit [NormedCommRing R] [StarRing R] in
theorem regroup_mem (big : R → Bool) (l : List ((O × F × List A) × List (I × R))) :
    ∀ (d : List ((F × List A) × List (O × I × R))) (k : F × List A),
    k ∈ (l.foldl (fun d e => upsert e.1.2 (entries big e.1.1 e.2) (fun x => x ++ entries big e.1.1 e.2) d) d).map Prod.fst →
    k ∈ d.map Prod.fst ∨ k ∈ l.map fun e => e.1.2 := by
  induction l with
  | nil => exact fun d k h => Or.inl h
  | cons e l ih =>
    intro d k h
    rw [List.foldl_cons] at h
    rcases ih _ k h with h | h
    · rw [upsert_keys] at h
      split at h
      · exact Or.inl h
      · rcases List.mem_append.1 h with h | h
        · exact Or.inl h
        · right; rw [List.mem_singleton.1 h]; simp
    · right; rw [List.map_cons]; exact List.mem_cons_of_mem _ h

theorem gather_mem [DecidableEq K] (l : List (K × List (R × I))) (k : K) (h : k ∈ (gather l).map Prod.fst) :
    k ∈ l.map Prod.fst := by
  have : ∀ (l : List (K × List (R × I))) (d : List (K × List (I × R))) (k : K),
      k ∈ (l.foldl (fun d e => upsert e.1 (e.2.foldl addBond []) (fun x => e.2.foldl addBond x) d) d).map Prod.fst →
      k ∈ d.map Prod.fst ∨ k ∈ l.map Prod.fst := by
    intro l
    induction l with
    | nil => exact fun d k h => Or.inl h
    | cons e l ih =>
      intro d k h
      rw [List.foldl_cons] at h
      rcases ih _ k h with h | h
      · rw [upsert_keys] at h
        split at h
        · exact Or.inl h
        · rcases List.mem_append.1 h with h | h
          · exact Or.inl h
          · right; rw [List.mem_singleton.1 h]; simp
      · right; rw [List.map_cons]; exact List.mem_cons_of_mem _ h
  rcases this l [] k h with h | h
  · simp at h
  · exact h

theorem consolidated_mem (big : R → Bool) (l : List (O × List (R × I) × F × List A)) (k : F × List A)
    (h : k ∈ (consolidateDynamic big l).map Prod.fst) : k ∈ l.map fun e => e.2.2 := by
  rcases regroup_mem big _ [] k h with h | h
  · simp at h
  · obtain ⟨e, he, rfl⟩ := List.mem_map.1 h
    have := gather_mem (l.map fun e => ((e.1, e.2.2.1, e.2.2.2), e.2.1)) e.1 (List.mem_map.2 ⟨e, he, rfl⟩)
    rw [List.map_map] at this
    obtain ⟨x, hx, hxe⟩ := List.mem_map.1 this
    refine List.mem_map.2 ⟨x, hx, ?_⟩
    rw [← hxe]; rfl

omit [NormedCommRing R] [StarRing R] in
theorem nodup_weight {α : Type} [DecidableEq α] (ω : α → ℝ) (h0 : ∀ a, 0 ≤ ω a) : ∀ {l k : List α}, l.Nodup →
    (∀ x ∈ l, x ∈ k) → (l.map ω).sum ≤ (k.map ω).sum
  | [], k, _, _ => by
    simp only [List.map_nil, List.sum_nil]
    refine List.sum_nonneg fun x hx => ?_
    obtain ⟨a, -, rfl⟩ := List.mem_map.1 hx
    exact h0 a
  | a :: l, k, hn, hs => by
    have ha := hs a (by simp)
    have hp := List.perm_cons_erase ha
    have hsum : (k.map ω).sum = ω a + ((k.erase a).map ω).sum := by
      rw [(hp.map ω).sum_eq]; simp
    rw [hsum, List.map_cons, List.sum_cons]
    have hn' := List.nodup_cons.1 hn
    have := nodup_weight ω h0 (l := l) (k := k.erase a) hn'.2 (fun x hx =>
      (List.mem_erase_of_ne (fun h : x = a => hn'.1 (h ▸ hx))).2 (hs x (by simp [hx])))
    linarith

/-! ### The dictionary of drives -/

variable {S : F × List A → Prop} {env : Env F A R} {tol : ℝ}

omit [DecidableEq F] [DecidableEq A] [NormedCommRing R] [StarRing R] in
theorem atom_inj {H : PyHash F A} (hc : NoCollision H S 1) {p q : F × List A} (hp : S p) (hq : S q)
    (h : Model.Drive.eq H (.atom (.base p.1 p.2)) (.atom (.base q.1 q.2)) = some true) : p = q := by
  have := hc (.atom (.base p.1 p.2)) (.atom (.base q.1 q.2)) (by simpa [parts, Atom.part] using hp)
    (by simpa [parts, Atom.part] using hq) (by simp [degree]) (by simp [degree]) h
  simp only [factors, List.perm_singleton, List.cons.injEq, Prod.mk.injEq, Atom.base.injEq, and_true] at this
  exact Prod.ext this.1 this.2

theorem makeDynamic_ok (hc : NoCollision env.hash S 1) (ht : Threshold env tol) (h0 : 0 ≤ tol)
    (app : F → List A → T → R) (t : T) {l : List ((F × List A) × Matrix n n R)} (hn : (l.map Prod.fst).Nodup)
    (hS : ∀ e ∈ l, S e.1) :
    Keys S 1 (makeDynamic env l) ∧
      Close (tol * (l.map fun e => ‖app e.1.1 e.1.2 t‖).sum) (dsum app t (makeDynamic env l))
        ((l.map fun e => app e.1.1 e.1.2 t • e.2).sum) := by
  have main : ∀ (l : List ((F × List A) × Matrix n n R)) (d : List (Fn F A × Mat n n R)), (l.map Prod.fst).Nodup →
      (∀ e ∈ l, S e.1) → (∀ x ∈ d, ∃ q : F × List A, x.1 = .atom (.base q.1 q.2) ∧ S q ∧ q ∉ l.map Prod.fst) →
      Keys S 1 (l.foldl (fun d e =>
        if env.tiny e.2 then d
        else
          let f : Fn F A := .atom (.base e.1.1 e.1.2)
          if d.any fun x => decide (Model.Drive.eq env.hash x.1 f = some true) then
            update env.hash f (fun _ => ⟨.sparse, e.2⟩) d
          else d ++ [(f, ⟨.sparse, e.2⟩)]) d) ∧
      Close (tol * (l.map fun e => ‖app e.1.1 e.1.2 t‖).sum) (dsum app t (l.foldl (fun d e =>
        if env.tiny e.2 then d
        else
          let f : Fn F A := .atom (.base e.1.1 e.1.2)
          if d.any fun x => decide (Model.Drive.eq env.hash x.1 f = some true) then
            update env.hash f (fun _ => ⟨.sparse, e.2⟩) d
          else d ++ [(f, ⟨.sparse, e.2⟩)]) d)) (dsum app t d + (l.map fun e => app e.1.1 e.1.2 t • e.2).sum) := by
    intro l
    induction l with
    | nil =>
      intro d _ _ hd
      refine ⟨fun x hx => ?_, by simpa using close_refl _⟩
      obtain ⟨q, hq, hqS, -⟩ := hd x hx
      rw [hq]
      exact ⟨by simpa [parts, Atom.part] using hqS, by simp [degree], trivial⟩
    | cons e l ih =>
      intro d hn hS hd
      have hn' := List.nodup_cons.1 (by simpa using hn : (e.1 :: l.map Prod.fst).Nodup)
      rw [List.foldl_cons, List.map_cons, List.map_cons, List.sum_cons, List.sum_cons]
      by_cases hT : env.tiny e.2 = true
      · rw [if_pos hT]
        obtain ⟨k, c⟩ := ih d hn'.2 (fun x hx => hS x (by simp [hx])) (fun x hx => by
          obtain ⟨q, h1, h2, h3⟩ := hd x hx
          exact ⟨q, h1, h2, fun h => h3 (by rw [List.map_cons]; exact List.mem_cons_of_mem _ h)⟩)
        refine ⟨k, ?_⟩
        have h1 := ht.zero_close hT (app e.1.1 e.1.2 t)
        have h2 := h1.add (close_refl ((l.map fun e => app e.1.1 e.1.2 t • e.2).sum))
        rw [zero_add] at h2
        have := c.trans ((close_refl (dsum app t d)).add h2)
        refine this.mono (le_of_eq ?_)
        ring
      · rw [if_neg hT]
        have hany : (d.any fun x => decide (Model.Drive.eq env.hash x.1 (.atom (.base e.1.1 e.1.2)) = some true)) = false := by
          rw [← Bool.not_eq_true, List.any_eq_true]
          rintro ⟨x, hx, h⟩
          obtain ⟨q, h1, h2, h3⟩ := hd x hx
          rw [h1] at h
          have := atom_inj hc h2 (hS e (by simp)) (by simpa using h)
          exact h3 (by rw [this]; simp)
        simp only [hany, Bool.false_eq_true, if_false]
        obtain ⟨k, c⟩ := ih (d ++ [(.atom (.base e.1.1 e.1.2), ⟨.sparse, e.2⟩)]) hn'.2 (fun x hx => hS x (by simp [hx]))
          (fun x hx => by
            rcases List.mem_append.1 hx with hx | hx
            · obtain ⟨q, h1, h2, h3⟩ := hd x hx
              exact ⟨q, h1, h2, fun h => h3 (by rw [List.map_cons]; exact List.mem_cons_of_mem _ h)⟩
            · rw [List.mem_singleton.1 hx]
              exact ⟨e.1, rfl, hS e (by simp), hn'.1⟩)
        refine ⟨k, ?_⟩
        rw [dsum_append, dsum_cons, dsum_nil, add_zero, add_assoc] at c
        refine c.mono (mul_le_mul_of_nonneg_left ?_ h0)
        have := norm_nonneg (app e.1.1 e.1.2 t)
        linarith
  obtain ⟨k, c⟩ := main l [] hn hS (fun x hx => by simp at hx)
  rw [dsum_nil, zero_add] at c
  exact ⟨k, c⟩

theorem fromStrings_ok (hc : NoCollision env.hash S 1) (ht : Threshold env tol) (ht0 : 0 ≤ tol)
    (hbig : ∀ J, big J = true ↔ ¬‖J‖ ≤ eps) (h0 : 0 ≤ eps) (hB0 : 0 ≤ B) (op : O → I → Matrix n n R)
    (hB : ∀ o i a c, ‖op o i a c‖ ≤ B) (app : F → List A → T → R) (t : T) (st : List (O × List (R × I)))
    (dyn : List (O × List (R × I) × F × List A)) (hS : ∀ e ∈ dyn, S e.2.2) :
    Keys S 1 (fromStrings env big op st dyn).dynamic ∧
    Close (eps * B * (count st + weight app t dyn) + tol * drives app t dyn)
      (toMatrix app (fromStrings env big op st dyn) t) (Spec.OpLists.static op st + Spec.OpLists.dynamic op app dyn t) := by
  have hmem : ∀ e ∈ consolidateDynamic big dyn, S e.1 := fun e he => by
    obtain ⟨x, hx, hxe⟩ := List.mem_map.1 (consolidated_mem big dyn e.1 (List.mem_map.2 ⟨e, he, rfl⟩))
    rw [← hxe]; exact hS x hx
  have hnodup : ((consolidateDynamic big dyn).map Prod.fst).Nodup := regroup_nodup big _ [] (by simp)
  obtain ⟨k, c⟩ := makeDynamic_ok (l := (consolidateDynamic big dyn).map fun e => (e.1, makeMatrix op e.2)) hc ht ht0 app t
    (by rw [List.map_map]; exact hnodup) (fun e he => by
      obtain ⟨x, hx, rfl⟩ := List.mem_map.1 he
      exact hmem x hx)
  refine ⟨k, ?_⟩
  rw [List.map_map, List.map_map] at c
  have c1 := static_close hbig h0 hB0 op hB st
  have c2 := dynamic_close hbig h0 hB0 op hB app t dyn
  have c3 := c1.add (c.trans c2)
  rw [toMatrix_eq]
  refine c3.mono ?_
  have hw : ((consolidateDynamic big dyn).map ((fun e => ‖app e.1.1 e.1.2 t‖) ∘ fun e => (e.1, makeMatrix op e.2))).sum ≤
      drives app t dyn := by
    have := nodup_weight (fun k : F × List A => ‖app k.1 k.2 t‖) (fun _ => norm_nonneg _) hnodup
      (fun x hx => consolidated_mem big dyn x hx)
    rw [List.map_map, List.map_map] at this
    exact this
  have := mul_le_mul_of_nonneg_left hw ht0
  linarith

end Proof.Consolidate
