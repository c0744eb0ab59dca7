import Verif.Model.Construct
import Mathlib.Data.Complex.BigOperators
/-!
C106: a hamiltonian made from a list of operator strings and matrices is at every time the sum of all
entries, and entries that cannot be used are refused.
-/
namespace Props
open Model.Construct

variable {S K : Type}

/-- Specification: the matrix of an entry of the static list. -/
def staticValue (op : S → ℕ → ℕ → ℂ) (i j : ℕ) : SEntry S → ℂ
  | .str s _ => op s i j
  | .mat m => m.val i j

/-- Specification: the matrix of an entry of the dynamic list times the value of its drive. -/
def dynamicValue (op : S → ℕ → ℕ → ℂ) (v : K → ℂ) (i j : ℕ) : DEntry S K → ℂ
  | .str s f _ => v f * op s i j
  | .mat m f _ => v f * m.val i j
  | .other => 0

/-- Specification: the sum of all entries at a time at which the drives have the values `v`. -/
def total (a : Args S K) (op : S → ℕ → ℕ → ℂ) (v : K → ℂ) (i j : ℕ) : ℂ :=
  (a.static.map (staticValue op i j)).sum + (a.dynamic.map (dynamicValue op v i j)).sum

/-- The type of the operator can hold the dense matrices: it is complex or they are real. -/
def Holds (cplx : Bool) (m : Mtx) : Prop := cplx = true ∨ m.cplx = false ∨ m.box ≠ .ndarray

/-- All matrices in the lists. -/
def matrices (a : Args S K) : List Mtx :=
  (a.static.filterMap fun e => match e with | .mat m => some m | _ => none)
    ++ a.dynamic.filterMap fun e => match e with | .mat m _ _ => some m | _ => none

theorem sortStatic_value (op : S → ℕ → ℕ → ℂ) (i j : ℕ) : ∀ (l : List (SEntry S)) (st : List S) (sm : List Mtx),
    sortStatic l = .ok (st, sm) →
    (l.map (staticValue op i j)).sum = (st.map fun s => op s i j).sum + (sm.map fun m => m.val i j).sum ∧
      sm = l.filterMap fun e => match e with | .mat m => some m | _ => none
  | [], st, sm, h => by simp [sortStatic] at h; obtain ⟨rfl, rfl⟩ := h; simp
  | e :: l, st, sm, h => by
    rw [sortStatic] at h
    split at h
    · simp at h
    split at h
    · simp at h
    rename_i a b hl
    obtain ⟨ih1, ih2⟩ := sortStatic_value op i j l a b hl
    cases e with
    | str s ok =>
      simp at h; obtain ⟨rfl, rfl⟩ := h
      refine ⟨?_, by simpa using ih2⟩
      simp [staticValue, ih1, add_assoc]
    | mat m =>
      simp at h; obtain ⟨rfl, rfl⟩ := h
      refine ⟨?_, by simp [← ih2]⟩
      simp [staticValue, ih1]; ring

theorem sortDynamic_value (op : S → ℕ → ℕ → ℂ) (v : K → ℂ) (i j : ℕ) :
    ∀ (l : List (DEntry S K)) (dy : List (S × K)) (dm : List (Mtx × K)), sortDynamic l = .ok (dy, dm) →
    (l.map (dynamicValue op v i j)).sum
        = (dy.map fun e => v e.2 * op e.1 i j).sum + (dm.map fun e => v e.2 * e.1.val i j).sum ∧
      dm.map Prod.fst = l.filterMap fun e => match e with | .mat m _ _ => some m | _ => none
  | [], dy, dm, h => by simp [sortDynamic] at h; obtain ⟨rfl, rfl⟩ := h; simp
  | e :: l, dy, dm, h => by
    cases e with
    | str s f ok =>
      rw [sortDynamic] at h
      split at h
      · simp at h
      split at h
      · simp at h
      rename_i a b hl
      obtain ⟨ih1, ih2⟩ := sortDynamic_value op v i j l a b hl
      simp at h; obtain ⟨rfl, rfl⟩ := h
      refine ⟨?_, by simpa using ih2⟩
      simp [dynamicValue, ih1, add_assoc]
    | mat m f ok =>
      rw [sortDynamic] at h
      split at h
      · simp at h
      split at h
      · simp at h
      rename_i a b hl
      obtain ⟨ih1, ih2⟩ := sortDynamic_value op v i j l a b hl
      simp at h; obtain ⟨rfl, rfl⟩ := h
      refine ⟨?_, by simp [← ih2]⟩
      simp [dynamicValue, ih1]; ring
    | other =>
      rw [sortDynamic] at h
      split at h <;> simp at h

theorem insert_value [DecidableEq K] (v : K → ℂ) (i j : ℕ) (f : K) (M : ℕ → ℕ → ℂ) :
    ∀ d : List (K × (ℕ → ℕ → ℂ)), ((putDrive f M d).map fun e => v e.1 * e.2 i j).sum
      = (d.map fun e => v e.1 * e.2 i j).sum + v f * M i j
  | [] => by simp [putDrive]
  | e :: d => by
    rw [putDrive]
    split
    · rename_i h; subst h; simp; ring
    · simp [insert_value v i j f M d]; ring

theorem foldl_insert_value [DecidableEq K] (op : S → ℕ → ℕ → ℂ) (v : K → ℂ) (i j : ℕ) :
    ∀ (dy : List (S × K)) (d : List (K × (ℕ → ℕ → ℂ))),
      ((dy.foldl (fun d e => putDrive e.2 (op e.1) d) d).map fun e => v e.1 * e.2 i j).sum
        = (d.map fun e => v e.1 * e.2 i j).sum + (dy.map fun e => v e.2 * op e.1 i j).sum
  | [], d => by simp
  | e :: dy, d => by
    rw [List.foldl_cons, foldl_insert_value op v i j dy, insert_value]
    simp [add_assoc]

theorem convert_value {cplx : Bool} {n : ℕ} {m : Mtx} {A : ℕ → ℕ → ℂ} (h : convert cplx n m = .ok A)
    (hm : Holds cplx m) : A = m.val ∧ m.rows = n ∧ m.cols = n := by
  unfold convert at h
  split at h
  · simp at h
  rename_i hn
  split at h
  · simp at h
  rename_i hs
  push Not at hs
  split at h
  · split at h
    · simp at h
    · simp at h; exact ⟨h.symm, hs⟩
  · split at h
    · rename_i hb hc
      rcases hm with hm | hm | hm
      · simp [hm] at hc
      · simp [hm] at hc
      · cases hbox : m.box <;> simp_all
    · simp at h; exact ⟨h.symm, hs⟩

theorem addStatic_value {cplx : Bool} {n : ℕ} (i j : ℕ) : ∀ (l : List Mtx) (M R : ℕ → ℕ → ℂ),
    (∀ m ∈ l, Holds cplx m) → addStatic cplx n l M = .ok R →
      R i j = M i j + (l.map fun m => m.val i j).sum
  | [], M, R, _, h => by simp [addStatic] at h; subst h; simp
  | m :: l, M, R, hl, h => by
    rw [addStatic] at h
    split at h
    · simp at h
    · rename_i A hA
      rw [addStatic_value i j l _ R (fun x hx => hl x (by simp [hx])) h,
        (convert_value hA (hl m (by simp))).1]
      simp [add_assoc]

theorem addDynamic_value [DecidableEq K] {cplx : Bool} {n : ℕ} (v : K → ℂ) (i j : ℕ) :
    ∀ (l : List (Mtx × K)) (d r : List (K × (ℕ → ℕ → ℂ))), (∀ m ∈ l, Holds cplx m.1) →
      addDynamic cplx n l d = .ok r →
      (r.map fun e => v e.1 * e.2 i j).sum
        = (d.map fun e => v e.1 * e.2 i j).sum + (l.map fun e => v e.2 * e.1.val i j).sum
  | [], d, r, _, h => by simp [addDynamic] at h; subst h; simp
  | m :: l, d, r, hl, h => by
    rw [addDynamic] at h
    split at h
    · simp at h
    · rename_i A hA
      rw [addDynamic_value v i j l _ r (fun x hx => hl x (by simp [hx])) h, insert_value,
        (convert_value hA (hl m (by simp))).1]
      simp [add_assoc]

theorem addMatrices_value [DecidableEq K] {cplx : Bool} (v : K → ℂ) (i j : ℕ) {b r : Built K} {st : List Mtx}
    {dy : List (Mtx × K)} (h1 : ∀ m ∈ st, Holds cplx m) (h2 : ∀ m ∈ dy, Holds cplx m.1)
    (h : addMatrices cplx b st dy = .ok r) :
    r.at v i j = b.at v i j + (st.map fun m => m.val i j).sum + (dy.map fun e => v e.2 * e.1.val i j).sum := by
  unfold addMatrices at h
  split at h
  · simp at h
  rename_i M hM
  split at h
  · simp at h
  rename_i d hd
  simp at h
  subst h
  simp only [Built.at]
  rw [addStatic_value i j st _ M h1 hM, addDynamic_value v i j dy _ d h2 hd]
  ring

/-- C106: whenever the constructor returns, the operator is at every time (for all values `v` of the
drives) the sum of all entries of both lists, in whatever way strings and matrices, sparse or dense, with
equal or different drives, are mixed.  Missing: real types with complex dense matrices
(`C106_fails_imaginary`). -/
theorem C106_sum_partial [DecidableEq K] (a : Args S K) (op : S → ℕ → ℕ → ℂ) (b : Built K)
    (h : construct a op = .ok b) (hm : ∀ m ∈ matrices a, Holds a.cplx m) (v : K → ℂ) (i j : ℕ) :
    b.at v i j = total a op v i j := by
  unfold construct at h
  split at h
  · simp at h
  split at h
  · simp at h
  rename_i st sm hs
  split at h
  · simp at h
  rename_i dy dm hd
  obtain ⟨s1, s2⟩ := sortStatic_value op i j _ _ _ hs
  obtain ⟨d1, d2⟩ := sortDynamic_value op v i j _ _ _ hd
  have hsm : ∀ m ∈ sm, Holds a.cplx m := fun m hm' => hm m (by
    rw [matrices, List.mem_append]; left; rw [← s2]; exact hm')
  have hdm : ∀ m ∈ dm, Holds a.cplx m.1 := fun m hm' => hm m.1 (by
    rw [matrices, List.mem_append]; right; rw [← d2]; exact List.mem_map_of_mem hm')
  rw [total, s1, d1]
  split at h
  · simp at h
  · rename_i b0 hb
    rw [addMatrices_value v i j hsm hdm h]
    have hb0 : b0.at v i j = (st.map fun s => op s i j).sum + (dy.map fun e => v e.2 * op e.1 i j).sum := by
      unfold fromStrings at hb
      split at hb
      · simp at hb
      have key : ∀ Ns, (if a.checks st (dy.map Prod.fst) then
          (.ok (some ⟨Ns, fun i j => (st.map fun s => op s i j).sum,
            dy.foldl (fun d e => putDrive e.2 (op e.1) d) []⟩) : Except Err (Option (Built K)))
          else .error .typeError) = .ok (some b0) →
          b0.at v i j = (st.map fun s => op s i j).sum + (dy.map fun e => v e.2 * op e.1 i j).sum := by
        intro Ns he
        split at he
        · simp at he
          subst he
          simp only [Built.at]
          rw [foldl_insert_value]
          simp
        · simp at he
      simp only at hb
      split at hb
      · split at hb
        · simp at hb
        · exact key _ hb
      · split at hb <;> simp at hb
      · split at hb
        · simp at hb
        · simp at hb
        · exact key _ hb
    rw [hb0]
    ring
  · rename_i hb
    have hn : st = [] ∧ dy = [] := by
      unfold fromStrings at hb
      split at hb
      · assumption
      exfalso
      simp only at hb
      split at hb
      · split at hb
        · simp at hb
        · split at hb <;> simp at hb
      · split at hb <;> simp at hb
      · split at hb
        · simp at hb
        · simp at hb
        · split at hb <;> simp at hb
    rw [hn.1, hn.2]
    split at h
    · rename_i he
      rw [he.1, he.2]
      have hz : ∀ n, (⟨n, fun _ _ => 0, []⟩ : Built K).at v i j = 0 := fun n => by simp [Built.at]
      simp only [List.map_nil, List.sum_nil, add_zero]
      split at h
      · split at h
        · split at h
          · simp at h
          · simp at h; subst h; exact hz _
        · simp at h
      · split at h
        · simp at h; subst h; exact hz _
        · simp at h
        · split at h
          · simp at h
          · simp at h
          · simp at h; subst h; exact hz _
    · split at h
      · simp at h
      · split at h
        · simp at h
        · rw [addMatrices_value v i j hsm hdm h]
          simp [Built.at]

/-- A string, a sparse and a dense matrix, two of them with the same drive. -/
noncomputable def mixedArgs : Args Unit Bool where
  static := [.str () true, .mat ⟨.sparse, 2, 2, true, fun i j => if i = j then Complex.I else 0⟩]
  dynamic := [.str () true true, .mat ⟨.ndarray, 2, 2, false, fun i j => i + j⟩ true true]
  N := .none
  basis := .basis 2
  shape := none
  cplx := true
  supported := true
  kwargs := false
  defaultNs := fun n => 2 ^ n
  checks := fun _ _ => true

example : ∃ b, construct mixedArgs (fun _ i j => if i = j then 0 else 1) = .ok b :=
  ⟨_, by simp [construct, mixedArgs, sortStatic, checkStatic, sortDynamic, fromStrings, addMatrices, addStatic,
    addDynamic, convert]; rfl⟩

/-- What the conversion of a matrix establishes holds for all matrices of a constructed operator. -/
theorem construct_forall [DecidableEq K] (a : Args S K) (op : S → ℕ → ℕ → ℂ) (b : Built K)
    (h : construct a op = .ok b) (P : ℕ → Mtx → Prop)
    (hconv : ∀ {n : ℕ} {m : Mtx} {A : ℕ → ℕ → ℂ}, convert a.cplx n m = .ok A → P n m) :
    ∀ m ∈ matrices a, P b.Ns m := by
  have hst : ∀ (n : ℕ) (l : List Mtx) (M R : ℕ → ℕ → ℂ), addStatic a.cplx n l M = .ok R →
      ∀ m ∈ l, P n m := by
    intro n l
    induction l with
    | nil => intro M R _ m hm; simp at hm
    | cons x l ih =>
      intro M R hR m hm
      rw [addStatic] at hR
      split at hR
      · simp at hR
      · rename_i A hA
        rcases List.mem_cons.1 hm with rfl | hm
        · exact hconv hA
        · exact ih _ R hR m hm
  have hdy : ∀ (n : ℕ) (l : List (Mtx × K)) (d r : List (K × (ℕ → ℕ → ℂ))), addDynamic a.cplx n l d = .ok r →
      ∀ m ∈ l, P n m.1 := by
    intro n l
    induction l with
    | nil => intro d r _ m hm; simp at hm
    | cons x l ih =>
      intro d r hr m hm
      rw [addDynamic] at hr
      split at hr
      · simp at hr
      · rename_i A hA
        rcases List.mem_cons.1 hm with rfl | hm
        · exact hconv hA
        · exact ih _ r hr m hm
  have hadd : ∀ {b0 : Built K} {st : List Mtx} {dy : List (Mtx × K)}, addMatrices a.cplx b0 st dy = .ok b →
      (∀ m ∈ st, P b.Ns m) ∧ ∀ m ∈ dy, P b.Ns m.1 := by
    intro b0 st dy hb
    unfold addMatrices at hb
    split at hb
    · simp at hb
    rename_i M hM
    split at hb
    · simp at hb
    rename_i d hd
    simp at hb
    subst hb
    exact ⟨hst _ _ _ _ hM, hdy _ _ _ _ hd⟩
  unfold construct at h
  split at h
  · simp at h
  split at h
  · simp at h
  rename_i st sm hs
  split at h
  · simp at h
  rename_i dy dm hd
  obtain ⟨-, s2⟩ := sortStatic_value op 0 0 _ _ _ hs
  obtain ⟨-, d2⟩ := sortDynamic_value op (fun _ => 0) 0 0 _ _ _ hd
  have hfin : (∀ m ∈ sm, P b.Ns m) ∧ (∀ m ∈ dm, P b.Ns m.1) := by
    split at h
    · simp at h
    · exact hadd h
    · split at h
      · rename_i he
        rw [he.1, he.2]
        simp
      · split at h
        · simp at h
        · split at h
          · simp at h
          · exact hadd h
  intro m hm
  rw [matrices, List.mem_append, ← s2, ← d2] at hm
  rcases hm with hm | hm
  · exact hfin.1 m hm
  · obtain ⟨e, he, rfl⟩ := List.mem_map.1 hm
    exact hfin.2 e he

/-- C106, shapes: whenever the constructor returns, all matrices in the lists are square of the size of the
operator. -/
theorem C106_shapes [DecidableEq K] (a : Args S K) (op : S → ℕ → ℕ → ℂ) (b : Built K)
    (h : construct a op = .ok b) : ∀ m ∈ matrices a, m.rows = b.Ns ∧ m.cols = b.Ns := by
  refine construct_forall a op b h (fun n m => m.rows = n ∧ m.cols = n) fun {n m A} hA => ?_
  unfold convert at hA
  split at hA
  · simp at hA
  split at hA
  · simp at hA
  · rename_i hs; push Not at hs; exact hs

/-- With operator strings and a basis the operator has the size of the basis. -/
theorem construct_basis [DecidableEq K] (a : Args S K) (op : S → ℕ → ℕ → ℂ) (b : Built K)
    (h : construct a op = .ok b) (Ns : ℕ) (hb : a.basis = .basis Ns) (hs : ∃ s ok, .str s ok ∈ a.static) :
    b.Ns = Ns := by
  have hne : ∀ (l : List (SEntry S)) st sm, sortStatic l = .ok (st, sm) → (∃ s ok, SEntry.str s ok ∈ l) → st ≠ [] := by
    intro l
    induction l with
    | nil => intro st sm _ h; simp at h
    | cons e l ih =>
      intro st sm hl hex
      rw [sortStatic] at hl
      split at hl
      · simp at hl
      split at hl
      · simp at hl
      rename_i x y hxy
      cases e with
      | str s ok => simp at hl; rw [← hl.1]; simp
      | mat m =>
        simp at hl
        obtain ⟨s, ok, hmem⟩ := hex
        rw [← hl.1]
        exact ih x y hxy ⟨s, ok, by simpa using hmem⟩
  unfold construct at h
  split at h
  · simp at h
  split at h
  · simp at h
  rename_i st sm hst
  have hst' := hne _ _ _ hst hs
  split at h
  · simp at h
  rename_i dy dm _
  have hN : ∀ r, fromStrings a op st dy = .ok r → ∃ b0 : Built K, r = some b0 ∧ b0.Ns = Ns := by
    intro r hr
    unfold fromStrings at hr
    rw [if_neg (by simp [hst'])] at hr
    simp only [hb] at hr
    split at hr
    · simp at hr
    · split at hr
      · simp at hr; exact ⟨_, hr.symm, rfl⟩
      · simp at hr
  split at h
  · simp at h
  · rename_i b0 hb0
    obtain ⟨b1, hb1, hb2⟩ := hN _ hb0
    simp at hb1
    subst hb1
    unfold addMatrices at h
    split at h
    · simp at h
    split at h
    · simp at h
    · simp at h; subst h; exact hb2
  · rename_i hb0
    obtain ⟨b1, hb1, -⟩ := hN _ hb0
    simp at hb1

/-- C106, the keyword `shape`: an operator made of matrices, or of nothing, is built for square shapes only, and has that shape. -/
theorem C106_square [DecidableEq K] (a : Args S K) (op : S → ℕ → ℕ → ℂ) (b : Built K) (h : construct a op = .ok b) (r c : ℕ)
    (hs : a.shape = some (r, c)) (hst : ∀ s ok, .str s ok ∉ a.static) (hdy : ∀ s f ok, .str s f ok ∉ a.dynamic) : r = c ∧ b.Ns = r := by
  have h1 : ∀ l : List (SEntry S), (∀ s ok, .str s ok ∉ l) → ∀ q, sortStatic l = .ok q → q.1 = [] := by
    intro l
    induction l with
    | nil => intro _ q h; simp only [sortStatic, Except.ok.injEq] at h; rw [← h]
    | cons e l ih =>
      intro hl q h
      have hl' := ih fun s ok hm => hl s ok (List.mem_cons_of_mem _ hm)
      cases e with
      | str s ok => exact absurd List.mem_cons_self (hl s ok)
      | mat m =>
        simp only [sortStatic] at h
        cases hc : checkStatic (SEntry.mat m : SEntry S) with
        | error x => simp [hc] at h
        | ok y =>
          cases hq : sortStatic l with
          | error x => simp [hq, hc] at h
          | ok p =>
            simp only [hq, hc, Except.ok.injEq] at h
            rw [← h]; exact hl' p hq
  have h2 : ∀ l : List (DEntry S K), (∀ s f ok, .str s f ok ∉ l) → ∀ q, sortDynamic l = .ok q → q.1 = [] := by
    intro l
    induction l with
    | nil => intro _ q h; simp only [sortDynamic, Except.ok.injEq] at h; rw [← h]
    | cons e l ih =>
      intro hl q h
      have hl' := ih fun s f ok hm => hl s f ok (List.mem_cons_of_mem _ hm)
      cases e with
      | str s f ok => exact absurd List.mem_cons_self (hl s f ok)
      | mat m f ok =>
        cases ok
        · simp [sortDynamic] at h
        · cases hq : sortDynamic l with
          | error x => simp [sortDynamic, hq] at h
          | ok p =>
            simp only [sortDynamic, hq, Bool.not_true, Bool.false_eq_true, if_false, Except.ok.injEq] at h
            rw [← h]; exact hl' p hq
      | other =>
        cases hq : sortDynamic l <;> simp [sortDynamic, hq] at h
  unfold construct at h
  split at h
  · simp at h
  split at h
  · simp at h
  rename_i st sm e1
  split at h
  · simp at h
  rename_i dy dm e2
  obtain rfl : st = [] := h1 _ hst _ e1
  obtain rfl : dy = [] := h2 _ hdy _ e2
  simp only [fromStrings, and_self, if_true, hs] at h
  by_cases hn : sm = [] ∧ dm = []
  · rw [if_pos hn] at h
    split at h
    · by_cases hrc : r = c
      · rw [if_neg (by simpa using hrc)] at h
        simp only [Except.ok.injEq] at h
        exact ⟨hrc, by rw [← h]⟩
      · rw [if_pos hrc] at h; simp at h
    · simp at h
  · rw [if_neg hn] at h
    by_cases hrc : r = c
    · rw [hrc] at h
      refine ⟨hrc, ?_⟩
      have : ∀ x : Except Err (Built K), x = .ok b → x = addMatrices a.cplx ⟨c, fun _ _ => 0, []⟩ sm dm → b.Ns = c := by
        intro x hx hx'
        rw [hx] at hx'
        unfold addMatrices at hx'
        split at hx'
        · simp at hx'
        · split at hx'
          · simp at hx'
          · simp only [Except.ok.injEq] at hx'; rw [hx']
      rw [hrc]
      refine this _ h ?_
      show (if c ≠ c then _ else _) = _
      rw [if_neg (by simp)]
    · exfalso
      have : ∀ x : Except Err (Built K), x = .ok b → x = .error .valueError → False := by
        intro x hx hx'; rw [hx] at hx'; simp at hx'
      refine this _ h ?_
      show (if r ≠ c then _ else _) = _
      rw [if_pos hrc]

/-- C106, refusals: a type that is not supported, a static list with a malformed string, a dynamic list
with a drive that cannot be called or an entry of another length; a sparse complex matrix for a real type, matrices of different sizes, and
matrices of another size than the basis of the strings: no operator is built. -/
theorem C106_refuses [DecidableEq K] (a : Args S K) (op : S → ℕ → ℕ → ℂ) :
    (a.supported = false → construct a op = .error .typeError) ∧
    (a.supported = true → ∀ s, .str s false ∈ a.static → ∀ b, construct a op ≠ .ok b) ∧
    (∀ m f, .mat m f false ∈ a.dynamic → ∀ b, construct a op ≠ .ok b) ∧
    (∀ s f, .str s f false ∈ a.dynamic → ∀ b, construct a op ≠ .ok b) ∧
    (.other ∈ a.dynamic → ∀ b, construct a op ≠ .ok b) ∧
    (∀ m ∈ matrices a, m.box = .sparse → m.cplx = true → a.cplx = false → ∀ b, construct a op ≠ .ok b) ∧
    (∀ m ∈ matrices a, ∀ n ∈ matrices a, (m.rows ≠ n.rows ∨ m.cols ≠ n.rows) → ∀ b, construct a op ≠ .ok b) ∧
    (∀ m ∈ matrices a, ∀ Ns, a.basis = .basis Ns → (∃ s ok, .str s ok ∈ a.static) →
      (m.rows ≠ Ns ∨ m.cols ≠ Ns) → ∀ b, construct a op ≠ .ok b) := by
  have bad : ∀ e : DEntry S K, (∀ l, ∀ r, sortDynamic (e :: l) ≠ .ok r) → e ∈ a.dynamic →
      ∀ b, construct a op ≠ .ok b := by
    intro e hbad he b h
    have : ∀ l : List (DEntry S K), e ∈ l → ∀ r, sortDynamic l ≠ .ok r := by
      intro l
      induction l with
      | nil => intro h; simp at h
      | cons e' l ih =>
        intro he r hr
        rcases List.mem_cons.1 he with rfl | he
        · exact hbad l r hr
        · have hl := ih he
          cases hq : sortDynamic l with
          | ok q => exact hl q hq
          | error x => cases e' <;> simp [sortDynamic, hq] at hr <;> split at hr <;> simp at hr
    unfold construct at h
    split at h
    · simp at h
    split at h
    · simp at h
    split at h
    · simp at h
    · rename_i hl
      exact this _ he _ hl
  refine ⟨fun h => by simp [construct, h], fun _ s hs b h => ?_,
    fun m f => bad _ fun l r => by simp [sortDynamic],
    fun s f => bad _ fun l r => by simp [sortDynamic],
    bad _ fun l r => by rw [sortDynamic]; split <;> simp,
    fun m hm h1 h2 h3 b h => ?_, fun m hm n hn hne b h => ?_, fun m hm Ns hb hs hne b h => ?_⟩
  · have : ∀ l : List (SEntry S), .str s false ∈ l → ∀ r, sortStatic l ≠ .ok r := by
      intro l
      induction l with
      | nil => intro h; simp at h
      | cons e l ih =>
        intro he r hr
        rw [sortStatic] at hr
        rcases List.mem_cons.1 he with rfl | he
        · simp [checkStatic] at hr
        · split at hr
          · simp at hr
          split at hr
          · simp at hr
          · rename_i hl
            exact ih he _ hl
    unfold construct at h
    split at h
    · simp at h
    split at h
    · simp at h
    · rename_i hl
      exact this _ hs _ hl
  · refine construct_forall a op b h (fun _ m => ¬(m.box = .sparse ∧ m.cplx = true)) (fun {n m A} hA hc => ?_) m hm ⟨h1, h2⟩
    unfold convert at hA
    split at hA
    · simp at hA
    split at hA
    · simp at hA
    · simp [hc.1, hc.2, h3] at hA
  · have h1 := C106_shapes a op b h m hm
    have h2 := C106_shapes a op b h n hn
    omega
  · have h1 := C106_shapes a op b h m hm
    have h2 := construct_basis a op b h Ns hb hs
    omega

/-! ### Defects -/

/-- Arguments for one static matrix. -/
def oneMatrix (m : Mtx) (cplx : Bool) (basis : BasisArg) (shape : Option (ℕ × ℕ)) : Args Unit Unit where
  static := [.mat m]
  dynamic := []
  N := .none
  basis := basis
  shape := shape
  cplx := cplx
  supported := true
  kwargs := false
  defaultNs := fun n => 2 ^ n
  checks := fun _ _ => true

/-- One 3×3 matrix with `shape=(3,3)`. -/
example : ∃ b, construct (oneMatrix ⟨.ndarray, 3, 3, false, fun i j => i + j⟩ false .none (some (3, 3))) (fun _ _ _ => 0) = .ok b ∧ b.Ns = 3 := by
  refine ⟨⟨3, fun i j => 0 + ((i : ℂ) + j), []⟩, ?_, rfl⟩
  simp [construct, oneMatrix, sortStatic, checkStatic, sortDynamic, fromStrings, addMatrices, addStatic, addDynamic, convert]

/-- A dense complex matrix given for a real type is accepted and loses its imaginary part (a sparse one is
refused): `hamiltonian([sigma_y], [], dtype=float64)` is the zero operator. -/
theorem C106_fails_imaginary :
    ∃ b, construct (oneMatrix ⟨.ndarray, 2, 2, true, fun i j => if i = j then 0 else if i = 0 then -Complex.I else Complex.I⟩
      false .none none) (fun _ _ _ => 0) = .ok b ∧ (∀ v i j, b.at v i j = 0) ∧
      total (oneMatrix ⟨.ndarray, 2, 2, true, fun i j => if i = j then 0 else if i = 0 then -Complex.I else Complex.I⟩
        false .none none) (fun _ _ _ => 0) (fun _ => 0) 1 0 = Complex.I := by
  refine ⟨⟨2, fun i j => 0 + ((if i = j then (0 : ℂ) else if i = 0 then -Complex.I else Complex.I).re : ℂ), []⟩, ?_, ?_, ?_⟩
  · simp [construct, oneMatrix, sortStatic, checkStatic, sortDynamic, fromStrings, firstShape, addMatrices, addStatic,
      addDynamic, convert]
  · intro v i j
    simp only [Built.at]
    by_cases h : i = j
    · simp [h]
    · rw [if_neg h]
      by_cases h0 : i = 0 <;> simp [h0]
  · simp [total, oneMatrix, staticValue]

/-- A matrix given as a nested list is refused if it has two rows, being taken for a malformed operator
string, while nested lists of any other size are accepted (with the argument `shape`). -/
theorem C106_fails_nested (n : ℕ) (val : ℕ → ℕ → ℂ) :
    (∃ b, construct (oneMatrix ⟨.nested, n, n, false, val⟩ true .none (some (n, n))) (fun _ _ _ => 0) = .ok b) ↔ n ≠ 2 := by
  by_cases h : n = 2
  · subst h
    simp [construct, oneMatrix, sortStatic, checkStatic]
  · simp [construct, oneMatrix, sortStatic, checkStatic, h, sortDynamic, fromStrings, addMatrices, addStatic,
      addDynamic, convert]

/-- A basis given together with matrices is not compared with them: a hamiltonian of another size than
its basis is built. -/
theorem C106_fails_basis (m : ℕ) (val : ℕ → ℕ → ℂ) (Ns : ℕ) :
    ∃ b, construct (oneMatrix ⟨.sparse, m, m, false, val⟩ true (.basis Ns) none) (fun _ _ _ => 0) = .ok b ∧ b.Ns = m := by
  refine ⟨_, by
    simp [construct, oneMatrix, sortStatic, checkStatic, sortDynamic, fromStrings, firstShape, addMatrices, addStatic,
      addDynamic, convert]
    rfl, rfl⟩

/-- The argument `shape` is ignored if there are operator strings: any shape is accepted and the operator
has the size of the basis. -/
theorem C106_fails_shape (shape : Option (ℕ × ℕ)) (Ns : ℕ) (op : Unit → ℕ → ℕ → ℂ) :
    ∃ b, construct (K := Unit) ⟨[.str () true], [], .none, .basis Ns, shape, true, true, false, fun n => 2 ^ n, fun _ _ => true⟩ op
      = .ok b ∧ b.Ns = Ns := by
  refine ⟨_, by
    simp [construct, sortStatic, checkStatic, sortDynamic, fromStrings, addMatrices, addStatic, addDynamic]
    rfl, rfl⟩

/-- Unexpected keyword arguments are refused next to operator strings and a basis, but ignored if there
are only matrices. -/
theorem C106_fails_keywords (m : ℕ) (val : ℕ → ℕ → ℂ) (op : Unit → ℕ → ℕ → ℂ) :
    (∃ b, construct { oneMatrix ⟨.sparse, m, m, false, val⟩ true (.basis m) none with kwargs := true } op = .ok b) ∧
    construct (K := Unit) ⟨[.str () true], [], .none, .basis m, none, true, true, true, fun n => 2 ^ n, fun _ _ => true⟩ op
      = .error .valueError := by
  constructor
  · exact ⟨_, by
      simp [construct, oneMatrix, sortStatic, checkStatic, sortDynamic, fromStrings, firstShape, addMatrices, addStatic,
        addDynamic, convert]
      rfl⟩
  · simp [construct, sortStatic, checkStatic, sortDynamic, fromStrings]

/-- The checks of hermiticity, symmetry and particle number look at operator strings only: with checks that
refuse everything, a matrix that is not Hermitian is accepted. -/
theorem C106_fails_unchecked :
    ∃ b, construct { oneMatrix ⟨.sparse, 2, 2, false, fun i j => if i = 0 ∧ j = 1 then 1 else 0⟩ true .none none with
      checks := fun _ _ => false } (fun _ _ _ => 0) = .ok b ∧ b.at (fun _ => 0) 0 1 = 1 ∧ b.at (fun _ => 0) 1 0 = 0 := by
  refine ⟨_, by
    simp [construct, oneMatrix, sortStatic, checkStatic, sortDynamic, fromStrings, firstShape, addMatrices, addStatic,
      addDynamic, convert]
    rfl, ?_, ?_⟩ <;> simp [Built.at]

end Props
