import Verif.Model.ProjectCalls
import Verif.Props.C01

/-!
C98: the options of `get_proj`, `project_to` and `project_from` of the general classes.

`sparse` chooses the format and `pcon` the larger space (`dimension`); the calls accept arrays of states of one space and return the same number of states of the other.
-/

namespace Props
open Model Spec Model.ProjectCalls

/-- The dimension of the space chosen by `pcon`: all configurations, or those with the particle numbers of the basis. -/
def dimension (b : GBasis) (np : ℕ) : Bool → ℕ
  | false => b.full
  | true => np

/-- `m` states with `n` components in the format chosen by `sparse`. -/
def states (n m : ℕ) (sparse : Bool) : Arr := if sparse then .sparse n m else .mat n m

/-- `get_proj` has one column per state of the basis and one row per state of the chosen space; missing: `pcon=True` for lists of numbers (`C98_fails_list`). -/
theorem C98_get_proj_partial (b : GBasis) (np : ℕ) (hm : b.made = true) (hp : b.pcon = some (.ok np)) (pcon : Bool) (h : pcon = true → b.single = true) :
    getProjShape b pcon = .ok (dimension b np pcon, b.Ns) := by
  cases pcon
  · simp [getProjShape, hm, dimension]
  · simp [getProjShape, hm, dimension, h, pconSize, hp]

/-- `project_from` takes arrays of states of the basis, and nothing else, to arrays of as many states of the chosen space, in the chosen format.
Missing: sparse results with `pcon` for lists of numbers, sparse arguments, `user_basis` (`C98_fails_list`, `C98_fails_sparse`, `C98_fails_user`). -/
theorem C98_from_partial (b : GBasis) (np : ℕ) (hm : b.made = true) (hp : b.pcon = some (.ok np)) (hN : 0 < b.Ns) (sparse pcon : Bool)
    (h : pcon = true → sparse = true → b.single = true) (n m : ℕ) :
    projectFrom b (.mat n m) sparse pcon = if n = b.Ns then .ok (states (dimension b np pcon) m sparse) else .error .valueError := by
  have hf : nsFull b pcon = .ok (dimension b np pcon) := by cases pcon <;> simp [nsFull, pconSize, hm, hp, dimension]
  unfold projectFrom
  rw [hf]
  simp only [columns, if_neg hN.ne', isSparse]
  by_cases hn : n = b.Ns
  · rw [if_neg (by simpa using hn), if_pos hn]
    cases sparse
    · simp [states]
    · simp [C98_get_proj_partial b np hm hp pcon fun hpc => h hpc rfl, dotShape, states, hn]
  · rw [if_pos hn, if_neg hn]

/-- `project_to` takes arrays of states of the chosen space, and nothing else, to arrays of as many states of the basis, in the chosen format.
Missing: sparse results with `pcon` for lists of numbers, sparse arguments, `user_basis` (`C98_fails_list`, `C98_fails_sparse`, `C98_fails_user`). -/
theorem C98_to_partial (b : GBasis) (np : ℕ) (hm : b.made = true) (hp : b.pcon = some (.ok np)) (hN : 0 < b.Ns) (sparse pcon : Bool)
    (h : pcon = true → sparse = true → b.single = true) (n m : ℕ) :
    projectTo b (.mat n m) sparse pcon = if n = dimension b np pcon then .ok (states b.Ns m sparse) else .error .valueError := by
  have hf : nsFull b pcon = .ok (dimension b np pcon) := by cases pcon <;> simp [nsFull, pconSize, hm, hp, dimension]
  unfold projectTo
  rw [hf]
  simp only [columns, if_neg hN.ne', isSparse]
  by_cases hn : n = dimension b np pcon
  · rw [if_neg (by simpa using hn), if_pos hn]
    cases sparse
    · simp [states]
    · simp [C98_get_proj_partial b np hm hp pcon fun hpc => h hpc rfl, dotShape, states, hn]
  · rw [if_pos hn, if_neg hn]

/-- Single states are treated as arrays of one state; the dense result has one axis again (if it has more than one component).
Missing: sparse results with `pcon` for lists of numbers, sparse arguments, `user_basis` (`C98_fails_list`, `C98_fails_sparse`, `C98_fails_user`). -/
theorem C98_vector_partial (b : GBasis) (np : ℕ) (hm : b.made = true) (hp : b.pcon = some (.ok np)) (hN : 1 < b.Ns) (pcon : Bool)
    (hd : 1 < dimension b np pcon) : projectFrom b (.vec b.Ns) false pcon = .ok (.vec (dimension b np pcon))
      ∧ projectTo b (.vec (dimension b np pcon)) false pcon = .ok (.vec b.Ns) := by
  have hf : nsFull b pcon = .ok (dimension b np pcon) := by cases pcon <;> simp [nsFull, pconSize, hm, hp, dimension]
  have h0 : b.Ns ≠ 0 := by omega
  have h1 : b.Ns ≠ 1 := by omega
  have h2 : dimension b np pcon ≠ 1 := by omega
  constructor
  · simp [projectFrom, hf, columns, h0, isSparse, squeezed, h2]
  · simp [projectTo, hf, columns, h0, isSparse, squeezed, h1]

/-- With `sparse=False` the two are inverse to each other as far as shapes go, for every choice of `pcon` and lists of numbers included.
Missing: sparse results with `pcon` for lists of numbers, sparse arguments, `user_basis` (`C98_fails_list`, `C98_fails_sparse`, `C98_fails_user`). -/
theorem C98_round_trip_partial (b : GBasis) (np : ℕ) (hm : b.made = true) (hp : b.pcon = some (.ok np)) (hN : 0 < b.Ns) (pcon : Bool) (m : ℕ) :
    (projectFrom b (.mat b.Ns m) false pcon).bind (fun w => projectTo b w false pcon) = .ok (.mat b.Ns m) := by
  rw [C98_from_partial b np hm hp hN false pcon (by simp) b.Ns m, if_pos rfl]
  show projectTo b (states (dimension b np pcon) m false) false pcon = _
  simp only [states, Bool.false_eq_true, if_false]
  rw [C98_to_partial b np hm hp hN false pcon (by simp), if_pos rfl]
  rfl

/-- Nothing works before the basis is made. -/
theorem C98_unmade (b : GBasis) (np : ℕ) (hm : b.made = false) (hp : b.pcon = some (.ok np)) (v : Arr) (sparse pcon : Bool) :
    getProjShape b pcon = .error .attributeError ∧ projectTo b v sparse pcon = .error .attributeError
      ∧ projectFrom b v sparse pcon = .error .attributeError := by
  cases pcon <;> simp [getProjShape, projectTo, projectFrom, nsFull, pconSize, hm, hp]

/-- The bases of spin 1/2 meet the hypotheses: `N = 3`, one up spin. -/
example : ∃ b, hcb id 3 (.int 1) = .ok b ∧ b.made = true ∧ b.single = true ∧ b.pcon = some (.ok 3) ∧ b.Ns = 3 ∧ b.full = 8 := by
  have e : hcbBasis id 3 (.int 1) = .ok [4, 2, 1] := by decide +kernel
  exact ⟨_, by simp only [hcb, e]; rfl, rfl, rfl, rfl, rfl, rfl⟩

/-- For lists of numbers `pcon=True` is ignored by `get_proj`: the condition for refusing it is that of the branch before, so the projector to all configurations is returned. -/
theorem C98_fails_list (b : GBasis) (hm : b.made = true) (hs : b.single = false) : getProjShape b true = .ok (b.full, b.Ns) := by
  simp [getProjShape, hm, hs]

/-- For lists of numbers the sparse (default) and the dense result of `project_from(…, pcon=True)` are in different spaces. -/
theorem C98_fails_list_from (b : GBasis) (np : ℕ) (hm : b.made = true) (hp : b.pcon = some (.ok np)) (hs : b.single = false) (hN : 0 < b.Ns) (m : ℕ) :
    projectFrom b (.mat b.Ns m) true true = .ok (.sparse b.full m) ∧ projectFrom b (.mat b.Ns m) false true = .ok (.mat np m) := by
  constructor
  · simp [projectFrom, nsFull, pconSize, hm, hp, columns, hN.ne', isSparse, C98_fails_list b hm hs, dotShape]
  · rw [C98_from_partial b np hm hp hN false true (by simp), if_pos rfl]
    rfl

/-- For lists of numbers that are not all numbers `project_to(…, pcon=True)` with the default `sparse=True` raises for every array. -/
theorem C98_fails_list_to (b : GBasis) (np : ℕ) (hm : b.made = true) (hp : b.pcon = some (.ok np)) (hs : b.single = false) (hN : 0 < b.Ns) (hne : np ≠ b.full)
    (v : Arr) : projectTo b v true true = .error .valueError := by
  have hf : nsFull b true = .ok np := by simp [nsFull, pconSize, hm, hp]
  unfold projectTo
  rw [hf]
  cases v with
  | vec n =>
    simp only [columns, if_neg hN.ne', isSparse, C98_fails_list b hm hs]
    by_cases hn : n = np
    · subst hn; simp [dotShape, Ne.symm hne]
    · simp [hn]
  | mat n m =>
    simp only [columns, if_neg hN.ne', isSparse, C98_fails_list b hm hs]
    by_cases hn : n = np
    · subst hn; simp [dotShape, Ne.symm hne]
    · simp [hn]
  | other d => rfl
  | sparse n m =>
    simp only [columns, if_neg hN.ne', isSparse]
    by_cases hn : n = np
    · subst hn; simp
    · simp [hn]

/-- The three defects at `spin_basis_general(3, Nup=[0,2])`. -/
theorem C98_fails_list_example : ∃ b, hcb sortDesc 3 (.list [0, 2]) = .ok b ∧ getProjShape b true = .ok (8, 4)
    ∧ projectFrom b (.vec 4) true true = .ok (.sparse 8 1) ∧ projectFrom b (.vec 4) false true = .ok (.vec 4)
    ∧ ∀ v, projectTo b v true true = .error .valueError := by
  have e : hcbBasis sortDesc 3 (.list [0, 2]) = .ok [6, 5, 3, 0] := by decide +kernel
  refine ⟨_, by simp only [hcb, e]; rfl, rfl, rfl, rfl, fun v => ?_⟩
  exact C98_fails_list_to _ 4 rfl rfl rfl (by decide) (by decide) v

/-- With the default `sparse=True` the result of `project_from` is never accepted by `project_to`, documented as its inverse, nor the other way round: sparse arguments raise. -/
theorem C98_fails_sparse (b : GBasis) (np : ℕ) (hm : b.made = true) (hp : b.pcon = some (.ok np)) (hN : 0 < b.Ns) (sparse pcon : Bool) (n m : ℕ) :
    projectTo b (.sparse n m) sparse pcon = .error .valueError ∧ projectFrom b (.sparse n m) sparse pcon = .error .valueError := by
  have hf : nsFull b pcon = .ok (dimension b np pcon) := by cases pcon <;> simp [nsFull, pconSize, hm, hp, dimension]
  constructor
  · simp only [projectTo, hf, columns, if_neg hN.ne', isSparse]
    split <;> rfl
  · simp only [projectFrom, hf, columns, if_neg hN.ne', isSparse]
    split <;> rfl

/-- For an empty basis the number of states is lost: whatever the argument, the result has no columns. -/
theorem C98_fails_empty (b : GBasis) (np : ℕ) (hm : b.made = true) (hp : b.pcon = some (.ok np)) (hN : b.Ns = 0) (sparse pcon : Bool) (n m : ℕ) :
    projectTo b (.mat n m) sparse pcon = .ok (states 0 0 sparse)
      ∧ projectFrom b (.mat n m) sparse pcon = .ok (states (dimension b np pcon) 0 sparse) := by
  have hf : nsFull b pcon = .ok (dimension b np pcon) := by cases pcon <;> simp [nsFull, pconSize, hm, hp, dimension]
  constructor
  · simp [projectTo, hf, columns, hN, states]
  · simp [projectFrom, hf, columns, hN, states]

/-- A single state of a basis with one state comes back without axes and is not accepted again: `project_to` of a vector gives a number, of which `project_from` raises. -/
theorem C98_fails_one_state (b : GBasis) (np : ℕ) (hm : b.made = true) (hp : b.pcon = some (.ok np)) (hN : b.Ns = 1) (pcon sparse : Bool) :
    projectTo b (.vec (dimension b np pcon)) false pcon = .ok (.other 0) ∧ projectFrom b (.other 0) sparse pcon = .error .valueError := by
  have hf : nsFull b pcon = .ok (dimension b np pcon) := by cases pcon <;> simp [nsFull, pconSize, hm, hp, dimension]
  constructor
  · simp [projectTo, hf, columns, hN, isSparse, squeezed]
  · simp [projectFrom, hf, columns]

/-- For `user_basis` every call with `pcon=True` raises `AttributeError`. -/
theorem C98_fails_user (full Ns : ℕ) (v : Arr) (sparse : Bool) : getProjShape (user full Ns) true = .error .attributeError
    ∧ projectTo (user full Ns) v sparse true = .error .attributeError ∧ projectFrom (user full Ns) v sparse true = .error .attributeError := by
  simp [getProjShape, projectTo, projectFrom, nsFull, pconSize, user]

end Props
