import Verif.Model.Reduced
import Mathlib.Tactic.Ring
/-! Triplets, `_make_matrix` and the matrix-free loop as sums of column entries. -/
namespace Proof.Assembly
open Model

/-- contribution of one column function to entry (j,i) -/
noncomputable def entry (c : Nat → Option (Option (Nat × ℂ))) (j i : Nat) : ℂ :=
  match c i with
  | some (some (j', m)) => if j' = j then m else 0
  | _ => 0

theorem coo_append (a b : List Triplet) (r c : Nat) : coo (a ++ b) r c = coo a r c + coo b r c := by
  simp [coo]

theorem coo_filter (l : List Triplet) (r c : Nat) :
    coo (open Classical in l.filter fun t => t.2.2 ≠ 0) r c = coo l r c := by
  classical
  induction l with
  | nil => rfl
  | cons t l ih =>
    rw [List.filter_cons]
    simp only [coo, List.map_cons, List.sum_cons] at ih ⊢
    split
    · rename_i h
      simp only [List.map_cons, List.sum_cons, ih]
    · rename_i h
      have : t.2.2 = 0 := by simpa using h
      rw [ih, this]; simp

theorem mapM_some {α β : Type} (f : α → Option β) (l : List α) (h : ∀ a ∈ l, (f a).isSome) :
    ∃ r, l.mapM f = some r ∧ List.Forall₂ (fun a b => f a = some b) l r := by
  induction l with
  | nil => exact ⟨[], rfl, List.Forall₂.nil⟩
  | cons a l ih =>
    obtain ⟨r, hr, hf⟩ := ih fun b hb => h b (by simp [hb])
    obtain ⟨b, hb⟩ := Option.isSome_iff_exists.1 (h a (by simp))
    refine ⟨b :: r, ?_, List.Forall₂.cons hb hf⟩
    rw [List.mapM_cons, hb, hr]; rfl

theorem coo_columns (c : Nat → Option (Option (Nat × ℂ))) (is : List Nat) (r : List Triplet)
    (hnd : is.Nodup)
    (hf : List.Forall₂ (fun i b => (c i).map (tripletOf i) = some b) is r) (j i : Nat) :
    coo r j i = if i ∈ is then entry c j i else 0 := by
  induction hf with
  | nil => simp [coo]
  | cons h1 h2 ih =>
    rename_i a b is' r'
    rw [List.nodup_cons] at hnd
    have ih := ih hnd.2
    simp only [coo, List.map_cons, List.sum_cons] at ih ⊢
    rw [ih]
    cases hc : c a with
    | none => rw [hc] at h1; simp at h1
    | some x =>
      rw [hc] at h1
      cases x with
      | none =>
        simp only [Option.map_some, Option.some.injEq, tripletOf] at h1
        subst h1
        by_cases hia : i = a
        · subst hia
          simp [hnd.1, entry, hc]
        · simp [hia]
      | some p =>
        obtain ⟨j', m⟩ := p
        simp only [Option.map_some, Option.some.injEq, tripletOf] at h1
        subst h1
        by_cases hia : i = a
        · subst hia
          simp [hnd.1, entry, hc]
        · simp [hia, Ne.symm hia]

theorem opTriplets_spec (c : Nat → Option (Option (Nat × ℂ))) (Ns : Nat) (h : ∀ i < Ns, (c i).isSome) :
    ∃ l, opTriplets c Ns = some l ∧ ∀ j i, i < Ns → coo l j i = entry c j i := by
  obtain ⟨r, hr, hf⟩ := mapM_some (fun i => (c i).map (tripletOf i)) (List.range Ns) (by
      intro i hi
      obtain ⟨x, hx⟩ := Option.isSome_iff_exists.1 (h i (by simpa using hi))
      simp [hx])
  refine ⟨open Classical in r.filter fun t => t.2.2 ≠ 0, by rw [opTriplets, generalOp, hr]; rfl, ?_⟩
  intro j i hi
  rw [coo_filter, coo_columns c _ r List.nodup_range hf, if_pos (by simpa using hi)]

theorem updateDiag_eq (l : List Triplet) (d : Nat → ℂ) (k : Nat) :
    updateDiag d l k = d k + (l.map fun t => if t.1 = k then t.2.2 else 0).sum := by
  induction l generalizing d with
  | nil => simp [updateDiag]
  | cons t l ih =>
    rw [updateDiag, ih]
    by_cases h : k = t.1
    · simp [h, add_assoc]
    · simp [h, Ne.symm h]

theorem coo_diagonal (l : List Triplet) (h : isDiagonal l = true) (r c : Nat) :
    coo l r c = if r = c then (l.map fun t => if t.1 = r then t.2.2 else 0).sum else 0 := by
  induction l with
  | nil => simp [coo]
  | cons t l ih =>
    simp only [isDiagonal, List.all_cons, Bool.and_eq_true, beq_iff_eq] at h
    have ih := ih h.2
    simp only [coo, List.map_cons, List.sum_cons] at ih ⊢
    rw [ih, ← h.1]
    by_cases hrc : r = c
    · subst hrc; simp
    · simp only [hrc, if_false, add_zero, ite_eq_right_iff]
      rintro ⟨h1, h2⟩; exact absurd (h1.symm.trans h2) hrc

/-- value represented by the two accumulators -/
noncomputable def value (diag : Option (Nat → ℂ)) (off : Option (Nat → Nat → ℂ)) (r c : Nat) : ℂ :=
  (match off with | some M => M r c | none => 0) + (match diag with | some d => if r = c then d r else 0 | none => 0)

theorem makeMatrixLoop_value (ls : List (List Triplet)) (diag : Option (Nat → ℂ))
    (off : Option (Nat → Nat → ℂ)) (r c : Nat) :
    value (makeMatrixLoop ls diag off).1 (makeMatrixLoop ls diag off).2 r c
      = value diag off r c + (ls.map fun l => coo l r c).sum := by
  induction ls generalizing diag off with
  | nil => simp [makeMatrixLoop]
  | cons l ls ih =>
    rw [makeMatrixLoop]
    split
    · split
      · rename_i hd
        rw [ih, List.map_cons, List.sum_cons, ← add_assoc]
        congr 1
        rw [coo_diagonal l hd]
        unfold value
        by_cases hrc : r = c
        · simp only [hrc, if_true, updateDiag_eq]
          cases diag <;> simp [add_assoc]
        · simp only [hrc, if_false]
          cases diag <;> simp
      · rw [ih, List.map_cons, List.sum_cons, ← add_assoc]
        congr 1
        unfold value
        cases off with
        | none => simp [add_comm]
        | some M => simp only [Option.elim]; ring
    · rename_i hl
      have : l = [] := List.length_eq_zero_iff.1 (by omega)
      subst this
      rw [ih]; simp [coo]

theorem makeMatrix_eq (ls : List (List Triplet)) (r c : Nat) :
    makeMatrix ls r c = (ls.map fun l => coo l r c).sum := by
  have := makeMatrixLoop_value ls none none r c
  rw [show value none none r c = 0 by simp [value], zero_add] at this
  rw [← this]
  unfold makeMatrix
  generalize makeMatrixLoop ls none none = p
  obtain ⟨d, M⟩ := p
  cases d <;> cases M <;> simp [value]

theorem matrixOfColumns_spec (cols : List (Nat → Option (Option (Nat × ℂ)))) (Ns : Nat)
    (h : ∀ c ∈ cols, ∀ i < Ns, (c i).isSome) :
    ∃ M, matrixOfColumns cols Ns = some M ∧ ∀ j i, i < Ns → M j i = (cols.map fun c => entry c j i).sum := by
  obtain ⟨ls, hls, hf⟩ := mapM_some (fun c => opTriplets c Ns) cols (by
    intro c hc
    obtain ⟨l, hl, _⟩ := opTriplets_spec c Ns (h c hc)
    simp [hl])
  refine ⟨makeMatrix ls, by rw [matrixOfColumns, hls]; rfl, ?_⟩
  intro j i hi
  rw [makeMatrix_eq]
  clear hls
  induction hf with
  | nil => rfl
  | cons h1 h2 ih =>
    rename_i c l cs ls
    rw [List.map_cons, List.sum_cons, List.map_cons, List.sum_cons,
      ih fun c hc => h c (by simp [hc])]
    obtain ⟨l', hl', he⟩ := opTriplets_spec c Ns (h c (by simp))
    rw [hl', Option.some.injEq] at h1
    rw [← h1, he j i hi]

/-- the matrix-free loop -/
theorem inplaceLoop_spec (c : Nat → Option (Option (Nat × ℂ))) (tr cj : Bool) (v : Nat → ℂ)
    (order : List Nat) (out : Nat → ℂ) (h : ∀ i ∈ order, (c i).isSome) :
    ∃ out', inplaceLoop c tr cj v order out = some out' ∧ ∀ k, out' k = out k + (order.map fun i =>
      match c i with
      | some (some (j, m)) =>
        if k = (if tr then i else j) then v (if tr then j else i) * (if cj then (starRingEnd ℂ) m else m) else 0
      | _ => 0).sum := by
  induction order generalizing out with
  | nil => exact ⟨out, rfl, by simp⟩
  | cons i order ih =>
    rw [inplaceLoop]
    obtain ⟨x, hx⟩ := Option.isSome_iff_exists.1 (h i (by simp))
    have h' : ∀ i ∈ order, (c i).isSome := fun a ha => h a (by simp [ha])
    simp only [hx]
    cases x with
    | none =>
      obtain ⟨o, ho, he⟩ := ih out h'
      refine ⟨o, ho, fun k => ?_⟩
      rw [he k, List.map_cons, List.sum_cons, hx]
      simp
    | some p =>
      obtain ⟨j, m⟩ := p
      obtain ⟨o, ho, he⟩ := ih _ h'
      refine ⟨o, ho, fun k => ?_⟩
      rw [he k, List.map_cons, List.sum_cons, hx, ← add_assoc]
      congr 1
      dsimp only
      by_cases hk : k = (if tr then i else j)
      · rw [if_pos hk, if_pos hk]
      · rw [if_neg hk, if_neg hk, add_zero]

end Proof.Assembly
