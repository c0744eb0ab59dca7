import Verif.Props.C29
import Verif.Model.PartialTraceCall
import Verif.Spec.PartialTraceCall
import Mathlib.Data.List.Perm.Basic
import Mathlib.Tactic.FinCases
import Mathlib.Tactic.Linarith

/-!
C101: `partial_trace` of lattice bases, for states of symmetry blocks, several states at once and density matrices.

`P` are the amplitudes of the states of the block in the full space, `walk` is the order in which Python walks through a set.
-/

namespace Props
open Spec.PartialTrace Spec.PartialTraceCall Model.PartialTrace Model.PartialTraceCall Proof.PartialTrace

/-- The density matrices that a call is about: of one state, of the columns of a matrix, the matrix itself if it is square and
`enforce_pure` is not set, and the matrices `R[:,:,j]` of an array with three dimensions. -/
def meant {Ns : ℕ} (enforcePure : Bool) : State Ns → List (Fin Ns → Fin Ns → ℂ)
  | .vec v => [density v]
  | .mat _ n V =>
    if h : n = Ns ∧ enforcePure = false then [fun k l => V k (l.cast h.1.symm)] else (List.finRange n).map fun j => density fun k => V k j
  | .cube m n R => if h : m = Ns then (List.finRange n).map fun j k l => R k (l.cast h.symm) j else []
  | .more => []
  | .other => []

/-- The calls of the theorem: `full` is the number of states of the full space. -/
def Proper {Ns : ℕ} (full : ℕ) (oneD enforcePure sparse : Bool) : State Ns → Prop
  | .vec _ => True
  | .mat isSparse n _ => n ≠ 0 ∧ (isSparse = true → oneD = true) ∧
      ((isSparse = true ∨ sparse = true) → enforcePure = true ∨ n ≠ Ns ∧ n ≠ full)
  | .cube m n _ => m = Ns ∧ n ≠ 0 ∧ sparse = false
  | .more => False
  | .other => False

/-- The sites of a call in the order that is used. -/
def usedOrder {L : ℕ} (ordering : Bool) (A : List (Fin L)) : List (Fin L) := if ordering then A.insertionSort (· ≤ ·) else A

theorem usedOrder_perm {L : ℕ} (ordering : Bool) (A : List (Fin L)) : (usedOrder ordering A).Perm A := by
  unfold usedOrder
  split
  · exact List.perm_insertionSort _ _
  · exact List.Perm.refl _

theorem sites_ok {L : ℕ} (A : List (Fin L)) (hA : A.Nodup) (hl : A.length ≠ L) (ordering : Bool) :
    sites L (some (A.map fun (i : Fin L) => ((i : ℕ) : ℤ))) ordering = .ok ((usedOrder ordering A).map Fin.val) := by
  have hinj : Function.Injective fun i : Fin L => ((i : ℕ) : ℤ) := fun i j h => Fin.ext (by simpa using h)
  have h1 : ((A.map fun (i : Fin L) => ((i : ℕ) : ℤ)).any fun s => decide (s < 0) || decide ((L : ℤ) < s)) = false := by
    rw [List.any_eq_false]
    intro s hs
    obtain ⟨i, -, rfl⟩ := List.mem_map.mp hs
    have := i.2
    simp
  have h2 : ((A.map fun (i : Fin L) => ((i : ℕ) : ℤ)).any fun s => decide (1 < (A.map fun (i : Fin L) => ((i : ℕ) : ℤ)).count s)) = false := by
    rw [List.any_eq_false]
    intro s _
    have := List.nodup_iff_count_le_one.mp (hA.map hinj) s
    simpa using this
  have h3 : (A.map fun (i : Fin L) => ((i : ℕ) : ℤ)).map Int.toNat = A.map Fin.val := by
    rw [List.map_map]
    rfl
  unfold sites
  simp only [Option.isSome_some, Option.getD_some, List.length_map, Bool.true_and, beq_iff_eq, if_neg hl]
  rw [if_neg (by rw [h1]; simp), if_neg (by rw [h2]; simp), h3]
  unfold usedOrder
  cases ordering
  · simp
  · simp only [if_true]
    rw [List.map_insertionSort (r := (· ≤ ·)) (s := (· ≤ ·)) Fin.val A fun a _ b _ => Fin.le_def]

theorem rest_ok {L : ℕ} (walk : List ℕ → List ℕ) (hw : ∀ l, (walk l).Perm l) (A : List (Fin L)) (hA : A.Nodup) :
    ∃ B : List (Fin L), rest walk L (A.map Fin.val) = B.map Fin.val ∧ (A ++ B).Perm (List.finRange L) := by
  have hp := hw ((List.range L).filter fun i => !(A.map Fin.val).contains i)
  have hlt : ∀ x ∈ rest walk L (A.map Fin.val), x < L := by
    intro x hx
    have := hp.mem_iff.mp hx
    simp only [List.mem_filter, List.mem_range] at this
    exact this.1
  have hex : ∀ l : List ℕ, (∀ x ∈ l, x < L) → ∃ B : List (Fin L), l = B.map Fin.val := by
    intro l
    induction l with
    | nil => exact fun _ => ⟨[], rfl⟩
    | cons x l ih =>
      intro h
      obtain ⟨B, hB⟩ := ih fun y hy => h y (List.mem_cons_of_mem _ hy)
      exact ⟨⟨x, h x List.mem_cons_self⟩ :: B, by simp [← hB]⟩
  obtain ⟨B, hB⟩ := hex _ hlt
  refine ⟨B, hB, (List.map_perm_map_iff Fin.val_injective).mp ?_⟩
  rw [List.map_append, ← hB, List.map_coe_finRange_eq_range]
  refine List.Perm.trans (List.Perm.append_left _ hp) ?_
  have hn : (A.map Fin.val).Nodup := hA.map Fin.val_injective
  rw [List.perm_ext_iff_of_nodup]
  · intro x
    simp only [List.mem_append, List.mem_filter, List.mem_range, Bool.not_eq_true', List.contains_eq_mem, decide_eq_false_iff_not]
    constructor
    · rintro (h | h)
      · obtain ⟨i, -, rfl⟩ := List.mem_map.mp h
        exact i.2
      · exact h.1
    · intro h
      by_cases hx : x ∈ A.map Fin.val
      · exact Or.inl hx
      · exact Or.inr ⟨h, hx⟩
  · rw [List.nodup_append]
    refine ⟨hn, List.nodup_range.filter _, ?_⟩
    intro a ha b hb
    rintro rfl
    simp only [List.mem_filter, Bool.not_eq_true', List.contains_eq_mem, decide_eq_false_iff_not] at hb
    exact hb.2 ha
  · exact List.nodup_range

/-- Several runs of a helper that gives the right result for each state. -/
theorem collect_ok {α β : Type} (trace : α → Option ((ℕ → ℕ → ℂ) × (ℕ → ℕ → ℂ))) (Q R : β → (ℕ → ℕ → ℂ) → Prop)
    (states : List α) (ds : List β) (h : List.Forall₂ (fun x d => ∃ r, trace x = some r ∧ Q d r.1 ∧ R d r.2) states ds)
    (shape : ℕ → List ℕ) (dA dB : ℕ) :
    ∃ oA oB, collect trace states shape dA dB = .ok (oA, oB) ∧ oA.shape = shape dA ∧ oB.shape = shape dB ∧
      List.Forall₂ Q ds oA.mats ∧ List.Forall₂ R ds oB.mats := by
  have key : ∃ l, states.mapM trace = some l ∧ List.Forall₂ Q ds (l.map Prod.fst) ∧ List.Forall₂ R ds (l.map Prod.snd) := by
    induction h with
    | nil => exact ⟨[], rfl, List.Forall₂.nil, List.Forall₂.nil⟩
    | cons hx _ ih =>
      obtain ⟨r, hr, hq, hr'⟩ := hx
      obtain ⟨l, hl, h1, h2⟩ := ih
      exact ⟨r :: l, by rw [List.mapM_cons, hr, hl]; rfl, List.Forall₂.cons hq h1, List.Forall₂.cons hr' h2⟩
  obtain ⟨l, hl, h1, h2⟩ := key
  exact ⟨⟨shape dA, l.map Prod.fst⟩, ⟨shape dB, l.map Prod.snd⟩, by simp only [collect, hl], rfl, rfl, h1, h2⟩

theorem projector_embed {L d Ns : ℕ} (P : ℕ → Fin Ns → ℂ) (v : Fin Ns → ℂ) :
    (projector fun s : Config L d => embed P v (row s)) = inFull P (density v) := by
  funext s t
  simp only [projector, embed, inFull, density, star_sum, star_mul']
  rw [Finset.sum_mul_sum]
  exact Finset.sum_congr rfl fun k _ => Finset.sum_congr rfl fun l _ => by ring

theorem mixed_embed {L d Ns : ℕ} (P : ℕ → Fin Ns → ℂ) (R : Fin Ns → Fin Ns → ℂ) :
    (fun s t : Config L d => embedMat P R (row s) (row t)) = inFull P R := by
  funext s t
  simp only [embedMat, inFull, Finset.sum_mul]
  exact Finset.sum_comm

/-- The shape of the results for a subsystem of dimension `D`. -/
def shapeOf {Ns : ℕ} (enforcePure sparse : Bool) (D : ℕ) : State Ns → List ℕ
  | .vec _ => if sparse then [D, D] else squeeze [D, D]
  | .mat isSparse n _ =>
    if isSparse || sparse then (if n = 1 then [D, D] else [n])
    else if n = Ns && !enforcePure then [1, D, D] else squeeze [n, D, D]
  | .cube _ n _ => [n, D, D]
  | .more => []
  | .other => []

section
variable {L d Ns : ℕ} (oneD : Bool) (P : ℕ → Fin Ns → ℂ) (walk : List ℕ → List ℕ) (quotient : ℕ → ℕ → ℕ)

theorem filter_range_sum (n m : ℕ) (hm : m < n) (f : ℕ → ℂ) :
    ((((List.range n).map fun i => (i, f i)).filter fun e => e.1 = m).map Prod.snd).sum = f m := by
  rw [List.filter_map, List.map_map]
  have : ((fun e : ℕ × ℂ => decide (e.1 = m)) ∘ fun i => (i, f i)) = fun i => decide (i = m) := rfl
  rw [this]
  have hf : (List.range n).filter (fun i => decide (i = m)) = [m] := by
    have h1 := List.filter_beq (l := List.range n) m
    have h2 : (List.range n).count m = 1 := List.count_eq_one_of_mem List.nodup_range (List.mem_range.mpr hm)
    rw [h2] at h1
    have h3 : (fun i => decide (i = m)) = fun x => x == m := by
      funext x
      rw [Bool.eq_iff_iff]
      simp
    rw [h3, h1]
    rfl
  rw [hf]
  simp

theorem sparse_ok {A B : List (Fin L)} (h : (A ++ B).Perm (List.finRange L))
    (hq : ∀ m < d ^ L, ∀ j, quotient m (d ^ j) = m / d ^ j) (psi : ℕ → ℂ) :
    ∃ r, some (traceSparse quotient d L (A.map Fin.val) (B.map Fin.val) ((List.range (d ^ L)).map fun i => (i, psi i))) = some r ∧
      (∀ a a' : Config A.length d, r.1 (row a) (row a') = partialTrace (projector fun s => psi (row s)) A a a') ∧
      (∀ b b' : Config B.length d, r.2 (row b) (row b') = star (partialTrace (projector fun s => psi (row s)) B b b')) := by
  have h1 := C29_sparse_partial (d := d) h ((List.range (d ^ L)).map fun i => (i, psi i)) (by
    intro e he
    obtain ⟨i, hi, rfl⟩ := List.mem_map.mp he
    exact List.mem_range.mp hi) quotient fun m hm => hq m hm _
  have hfull : (fun s : Config L d => ((((List.range (d ^ L)).map fun i => (i, psi i)).filter fun e => e.1 = row s).map Prod.snd).sum) =
      fun s => psi (row s) := by
    funext s
    exact filter_range_sum _ _ (row_lt s) psi
  simp only [hfull] at h1
  exact ⟨_, rfl, h1.1, h1.2⟩

/-- C101, part: for every block, every list of sites and every way to give the states, `partial_trace` returns one reduced density matrix
per state or density matrix, and the first result holds the partial traces of the density matrices in the full space over the other sites.
Missing: the second result holds the complex conjugates (`C29_fails_conjugate`) and lists the other sites in the order of a Python set
(`C29_fails_order`); sparse states of the general classes are refused (`C101_fails_sparse`) and density matrices are taken for pure states with
`sparse=True` (`C101_fails_mixed`). -/
theorem C101_traces_partial (hw : ∀ l, (walk l).Perm l) (hq : ∀ m < d ^ L, ∀ j, quotient m (d ^ j) = m / d ^ j)
    (hd : 1 < d) (hN : 0 < Ns) (hL : 2 * L ≤ 64) (A : List (Fin L)) (hA : A.Nodup) (hl : A.length < L)
    (state : State Ns) (ordering enforcePure sparse : Bool) (hs : Proper (d ^ L) oneD enforcePure sparse state) :
    ∃ B, (usedOrder ordering A ++ B).Perm (List.finRange L) ∧ ∃ oA oB,
      call oneD d L P walk quotient state (some (A.map fun (i : Fin L) => ((i : ℕ) : ℤ))) ordering enforcePure sparse = .ok (oA, oB) ∧
      oA.shape = shapeOf enforcePure sparse (d ^ (usedOrder ordering A).length) state ∧
      oB.shape = shapeOf enforcePure sparse (d ^ B.length) state ∧
      List.Forall₂ (fun rho M => ∀ a a' : Config (usedOrder ordering A).length d,
        M (row a) (row a') = partialTrace (inFull P rho) (usedOrder ordering A) a a') (meant enforcePure state) oA.mats ∧
      List.Forall₂ (fun rho M => ∀ b b' : Config B.length d,
        M (row b) (row b') = star (partialTrace (inFull P rho) B b b')) (meant enforcePure state) oB.mats := by
  have hperm := usedOrder_perm ordering A
  obtain ⟨B, hB, h⟩ := rest_ok walk hw (usedOrder ordering A) (hperm.nodup_iff.mpr hA)
  refine ⟨B, h, ?_⟩
  have hfull : d ^ L ≠ 1 := by
    have : L ≠ 0 := by omega
    have := Nat.one_lt_pow this hd
    omega
  unfold call
  rw [sites_ok A hA (by omega)]
  simp only [hB]
  rw [if_neg (by simp only [Bool.or_eq_true, decide_eq_true_eq, not_or]; exact ⟨by omega, hfull⟩)]
  generalize usedOrder ordering A = A' at *
  have hpure (v : Fin Ns → ℂ) := C29_pure_partial (d := d) h (by omega) (embed P v)
  have hmixed (R : Fin Ns → Fin Ns → ℂ) := C29_mixed_partial (d := d) h hL (embedMat P R)
  have hsp (v : Fin Ns → ℂ) := sparse_ok (d := d) quotient h hq (embed P v)
  simp only [projector_embed] at hpure hsp
  simp only [mixed_embed] at hmixed
  have hlenA : (A'.map Fin.val).length = A'.length := List.length_map _
  have hlenB : (B.map Fin.val).length = B.length := List.length_map _
  -- the three helpers, for lists of states
  have cols {n : ℕ} (V : Fin Ns → Fin n → ℂ) (trace : (ℕ → ℂ) → Option ((ℕ → ℕ → ℂ) × (ℕ → ℕ → ℂ))) (Q R : (Fin Ns → Fin Ns → ℂ) → (ℕ → ℕ → ℂ) → Prop)
      (ht : ∀ v : Fin Ns → ℂ, ∃ r, trace (embed P v) = some r ∧ Q (density v) r.1 ∧ R (density v) r.2) :
      List.Forall₂ (fun x dd => ∃ r, trace x = some r ∧ Q dd r.1 ∧ R dd r.2) ((List.finRange n).map fun j => embed P fun k => V k j)
        ((List.finRange n).map fun j => density fun k => V k j) := by
    rw [List.forall₂_map_left_iff, List.forall₂_map_right_iff, List.forall₂_same]
    exact fun j _ => ht _
  have dense (v : Fin Ns → ℂ) : ∃ r, tracePure d (A'.map Fin.val) (B.map Fin.val) (d ^ L) (embed P v) = some r ∧
      (∀ a a' : Config A'.length d, r.1 (row a) (row a') = partialTrace (inFull P (density v)) A' a a') ∧
      (∀ b b' : Config B.length d, r.2 (row b) (row b') = star (partialTrace (inFull P (density v)) B b b')) := by
    obtain ⟨rA, rB, hr, h1, h2⟩ := hpure v
    exact ⟨(rA, rB), hr, h1, h2⟩
  have densem (R : Fin Ns → Fin Ns → ℂ) : ∃ r, traceMixed d L (A'.map Fin.val) (B.map Fin.val) (d ^ L) (embedMat P R) = some r ∧
      (∀ a a' : Config A'.length d, r.1 (row a) (row a') = partialTrace (inFull P R) A' a a') ∧
      (∀ b b' : Config B.length d, r.2 (row b) (row b') = star (partialTrace (inFull P R) B b b')) := by
    obtain ⟨rA, rB, hr, h1, h2⟩ := hmixed R
    exact ⟨(rA, rB), hr, h1, h2⟩
  have hin : ((A'.map Fin.val).any fun s => decide (L ≤ s)) = false := by
    rw [List.any_eq_false]
    intro s hs
    obtain ⟨i, -, rfl⟩ := List.mem_map.mp hs
    have := i.2
    simp
  have hsparse {n : ℕ} (V : Fin Ns → Fin n → ℂ) (hn : n ≠ 0) (hc : enforcePure = true ∨ n ≠ d ^ L) :
      ∃ oA oB, sparseBranch d L quotient (A'.map Fin.val) (B.map Fin.val) enforcePure ((List.finRange n).map fun j => embed P fun k => V k j) =
          .ok (oA, oB) ∧
        oA.shape = (if n = 1 then [d ^ A'.length, d ^ A'.length] else [n]) ∧ oB.shape = (if n = 1 then [d ^ B.length, d ^ B.length] else [n]) ∧
        List.Forall₂ (fun rho M => ∀ a a' : Config A'.length d, M (row a) (row a') = partialTrace (inFull P rho) A' a a')
          ((List.finRange n).map fun j => density fun k => V k j) oA.mats ∧
        List.Forall₂ (fun rho M => ∀ b b' : Config B.length d, M (row b) (row b') = star (partialTrace (inFull P rho) B b b'))
          ((List.finRange n).map fun j => density fun k => V k j) oB.mats := by
    unfold sparseBranch
    simp only [List.length_map, List.length_finRange, hlenA, hlenB]
    rw [if_neg hn, if_neg (by rcases hc with hc | hc <;> simp [hc]), if_neg (by rw [hin]; simp)]
    exact collect_ok _ _ _ _ _ (cols V _ _ _ hsp) _ _ _
  cases state with
  | vec v =>
    unfold branches
    cases sparse
    · simp only [Bool.false_eq_true, if_false, hlenA, hlenB]
      exact collect_ok _ _ _ _ _ (List.Forall₂.cons (dense v) List.Forall₂.nil) _ _ _
    · simpa [meant, shapeOf] using hsparse (fun k (_ : Fin 1) => v k) one_ne_zero (Or.inr (Ne.symm hfull))
  | mat isSparse n V =>
    obtain ⟨hn, ho, hc⟩ := hs
    by_cases hS : isSparse = true ∨ sparse = true
    · have hb : branches oneD d L P quotient (A'.map Fin.val) (B.map Fin.val) enforcePure sparse (.mat isSparse n V) =
          sparseBranch d L quotient (A'.map Fin.val) (B.map Fin.val) enforcePure ((List.finRange n).map fun j => embed P fun k => V k j) := by
        unfold branches
        cases isSparse
        · have : sparse = true := by simpa using hS
          simp [this]
        · simp [ho rfl]
      have hm : meant enforcePure (.mat isSparse n V) = (List.finRange n).map fun j => density fun k => V k j := by
        simp only [meant]
        rw [dif_neg]
        rintro ⟨h1, h2⟩
        rcases hc hS with h3 | h3
        · rw [h2] at h3; exact absurd h3 (by simp)
        · exact h3.1 h1
      have hsh (D : ℕ) : shapeOf enforcePure sparse D (.mat isSparse n V) = if n = 1 then [D, D] else [n] := by
        simp only [shapeOf]
        rw [if_pos]
        simpa using hS
      rw [hb, hm, hsh, hsh]
      exact hsparse V hn ((hc hS).imp id And.right)
    · have h1 : isSparse = false := by simpa using fun h => hS (Or.inl h)
      have h2 : sparse = false := by simpa using fun h => hS (Or.inr h)
      subst h1 h2
      unfold branches
      by_cases hnN : n = Ns
      · subst hnN
        cases enforcePure
        · simp only [Bool.false_eq_true, if_false, dif_pos, hlenA, hlenB]
          have hm : meant false (.mat false n V : State n) = [fun k l => V k l] := by simp [meant]
          have hsh (D : ℕ) : shapeOf false false D (.mat false n V : State n) = [1, D, D] := by simp [shapeOf]
          rw [hm, hsh, hsh]
          exact collect_ok _ _ _ _ _ (List.Forall₂.cons (densem _) List.Forall₂.nil) (fun D => [1, D, D]) _ _
        · simp only [Bool.false_eq_true, if_false, if_true, dif_pos, hlenA, hlenB]
          have hm : meant true (.mat false n V : State n) = (List.finRange n).map fun j => density fun k => V k j := by simp [meant]
          have hsh (D : ℕ) : shapeOf true false D (.mat false n V : State n) = squeeze [n, D, D] := by simp [shapeOf]
          rw [hm, hsh, hsh]
          exact collect_ok _ _ _ _ _ (cols V _ _ _ dense) (fun D => squeeze [n, D, D]) _ _
      · simp only [Bool.false_eq_true, if_false, dif_neg hnN, if_neg hn, hlenA, hlenB]
        have hm : meant enforcePure (.mat false n V : State Ns) = (List.finRange n).map fun j => density fun k => V k j := by simp [meant, hnN]
        have hsh (D : ℕ) : shapeOf enforcePure false D (.mat false n V : State Ns) = squeeze [n, D, D] := by simp [shapeOf, hnN]
        rw [hm, hsh, hsh]
        exact collect_ok _ _ _ _ _ (cols V _ _ _ dense) (fun D => squeeze [n, D, D]) _ _
  | cube m n R =>
    obtain ⟨rfl, hn, rfl⟩ := hs
    unfold branches
    simp only [Bool.false_eq_true, if_false, dif_pos, if_neg hn, hlenA, hlenB]
    have hm : meant enforcePure (.cube m n R : State m) = (List.finRange n).map fun j k l => R k l j := by simp [meant]
    rw [hm]
    refine collect_ok _ _ _ _ _ ?_ (fun D => [n, D, D]) _ _
    rw [List.forall₂_map_left_iff, List.forall₂_map_right_iff, List.forall₂_same]
    exact fun j _ => densem _
  | more => exact hs.elim
  | other => exact hs.elim

/-- C101: without `sub_sys_A` the subsystem are the first half of the sites. -/
theorem C101_default (hL : L ≠ 0) (state : State Ns) (ordering enforcePure sparse : Bool) :
    call oneD d L P walk quotient state none ordering enforcePure sparse =
      call oneD d L P walk quotient state (some ((List.range (L / 2)).map Int.ofNat)) ordering enforcePure sparse := by
  unfold call
  have : sites L none ordering = sites L (some ((List.range (L / 2)).map Int.ofNat)) ordering := by
    unfold sites
    have : L / 2 ≠ L := by omega
    simp [this]
  rw [this]

theorem collect_error {α : Type} (trace : α → Option ((ℕ → ℕ → ℂ) × (ℕ → ℕ → ℂ))) (states : List α) (h0 : states ≠ [])
    (h : ∀ x ∈ states, trace x = none) (shape : ℕ → List ℕ) (dA dB : ℕ) : collect trace states shape dA dB = .error .valueError := by
  cases states with
  | nil => exact absurd rfl h0
  | cons x l =>
    unfold collect
    rw [List.mapM_cons, h x List.mem_cons_self]
    rfl

/-- C101: a list of sites is refused if it has a number that is not a site, a site twice or all sites. -/
theorem C101_refused (hw : ∀ l, (walk l).Perm l) (hd : 1 < d) (A : List ℤ)
    (hA : (∃ s ∈ A, s < 0 ∨ (L : ℤ) ≤ s) ∨ ¬A.Nodup ∨ A.length = L) (state : State Ns) (ordering enforcePure sparse : Bool) :
    ∃ e, call oneD d L P walk quotient state (some A) ordering enforcePure sparse = .error e := by
  unfold call
  cases hS : sites L (some A) ordering with
  | error e => exact ⟨e, rfl⟩
  | ok A' =>
    simp only
    unfold sites at hS
    simp only [Option.isSome_some, Option.getD_some, Bool.true_and, beq_iff_eq] at hS
    split at hS
    · cases hS
    rename_i h1
    split at hS
    · cases hS
    rename_i h2
    split at hS
    · cases hS
    rename_i h3
    have hnd : A.Nodup := by
      rw [List.nodup_iff_count_le_one]
      intro s
      by_cases hs : s ∈ A
      · by_contra hc
        exact h3 (List.any_eq_true.mpr ⟨s, hs, by simpa using hc⟩)
      · rw [List.count_eq_zero_of_not_mem hs]; omega
    have hle : ∀ s ∈ A, 0 ≤ s ∧ s ≤ L := by
      intro s hs
      have := fun hc => h2 (List.any_eq_true.mpr ⟨s, hs, hc⟩)
      simp at this
      omega
    have hLA : (L : ℤ) ∈ A := by
      rcases hA with ⟨s, hs, hs'⟩ | hA | hA
      · have := hle s hs
        have : s = L := by omega
        rwa [← this]
      · exact absurd hnd hA
      · exact absurd hA h1
    have hp : A'.Perm (A.map Int.toNat) := by
      cases hS
      split
      · exact List.perm_insertionSort _ _
      · exact List.Perm.refl _
    have hLA' : L ∈ A' := hp.mem_iff.mpr (List.mem_map.mpr ⟨L, hLA, by simp⟩)
    -- together the two lists have more than `L` entries
    have hlen : L + 1 ≤ A'.length + (rest walk L A').length := by
      have h4 : (rest walk L A').length = ((List.range L).filter fun i => !A'.contains i).length := (hw _).length_eq
      have h5 : (List.range (L + 1)).Subperm (A' ++ (List.range L).filter fun i => !A'.contains i) := by
        refine List.nodup_range.subperm ?_
        intro x hx
        rw [List.mem_append, List.mem_filter]
        by_cases hx' : x ∈ A'
        · exact Or.inl hx'
        · have : x ≠ L := fun h => hx' (h ▸ hLA')
          have := List.mem_range.mp hx
          exact Or.inr ⟨List.mem_range.mpr (by omega), by simpa using hx'⟩
      have := h5.length_le
      rw [List.length_range, List.length_append] at this
      omega
    have hne : d ^ A'.length * d ^ (rest walk L A').length ≠ d ^ L := by
      rw [← pow_add]
      have := Nat.pow_lt_pow_right hd (show L < A'.length + (rest walk L A').length by omega)
      omega
    have hpure (psi : ℕ → ℂ) : tracePure d A' (rest walk L A') (d ^ L) psi = none := by
      unfold tracePure reshapePure
      cases shuffle d (A' ++ rest walk L A') (d ^ L) psi with
      | none => rfl
      | some v => simp [hne]
    have hmixed (rho : ℕ → ℕ → ℂ) : traceMixed d L A' (rest walk L A') (d ^ L) rho = none := by
      unfold traceMixed reshapeMixed
      have h6 : d ^ A'.length * d ^ (rest walk L A').length * (d ^ A'.length * d ^ (rest walk L A').length) ≠ d ^ L * d ^ L :=
        fun h => hne (Nat.mul_self_inj.mp h)
      cases shuffle d ((A' ++ rest walk L A') ++ (A' ++ rest walk L A').map fun s => L + s) (d ^ L * d ^ L) fun m => rho (m / d ^ L) (m % d ^ L) with
      | none => rfl
      | some v => simp [h6]
    have hsp (cols : List (ℕ → ℂ)) : ∃ e, sparseBranch d L quotient A' (rest walk L A') enforcePure cols = .error e := by
      unfold sparseBranch
      simp only
      split
      · exact ⟨_, rfl⟩
      split
      · exact ⟨_, rfl⟩
      rw [if_pos (List.any_eq_true.mpr ⟨L, hLA', by simp⟩)]
      exact ⟨_, rfl⟩
    by_cases hN : Ns = 0 ∨ d ^ L = 1
    · rw [if_pos (by simpa using hN)]
      exact ⟨_, rfl⟩
    rw [if_neg (by simpa using hN)]
    have hNs : Ns ≠ 0 := fun h => hN (Or.inl h)
    cases state with
    | vec v =>
      simp only [branches]
      cases sparse
      · simp only [Bool.false_eq_true, if_false]
        rw [collect_error _ _ (by simp) fun x _ => hpure x]
        exact ⟨_, rfl⟩
      · simp only [if_true]
        exact hsp _
    | mat isSparse n V =>
      have hcol : n ≠ 0 → ((List.finRange n).map fun j => embed P fun k => V k j) ≠ [] := by
        intro hn h
        have := congrArg List.length h
        simp at this
        exact hn this
      simp only [branches]
      split
      · split
        · exact hsp _
        · exact ⟨_, rfl⟩
      split
      · exact hsp _
      split
      · rename_i hn
        split
        · rw [collect_error _ _ (hcol (by omega)) fun x _ => hpure x]
          exact ⟨_, rfl⟩
        · rw [collect_error _ _ (by simp) fun x _ => hmixed x]
          exact ⟨_, rfl⟩
      split
      · exact ⟨_, rfl⟩
      rename_i hn
      rw [collect_error _ _ (hcol hn) fun x _ => hpure x]
      exact ⟨_, rfl⟩
    | cube m n R =>
      simp only [branches]
      split
      · exact ⟨_, rfl⟩
      split
      · split
        · exact ⟨_, rfl⟩
        rename_i hn
        rw [collect_error _ _ (by
          intro h
          have := congrArg List.length h
          simp at this
          exact hn this) fun x _ => hmixed x]
        exact ⟨_, rfl⟩
      · exact ⟨_, rfl⟩
    | more => exact ⟨_, rfl⟩
    | other => exact ⟨_, rfl⟩

/-- `partial_trace` documents sparse states, but the general classes refuse every one of them. -/
theorem C101_fails_sparse (A : Option (List ℤ)) (n : ℕ) (V : Fin Ns → Fin n → ℂ) (ordering enforcePure sparse : Bool) :
    ∃ e, call false d L P walk quotient (.mat true n V) A ordering enforcePure sparse = .error e := by
  unfold call
  cases sites L A ordering with
  | error e => exact ⟨e, rfl⟩
  | ok A' =>
    simp only
    split
    · exact ⟨_, rfl⟩
    · exact ⟨_, rfl⟩

end

/-- With `sparse=True` a density matrix of a block that is not the full space is taken for several pure states: in the block of two sites
with one spin up (its states are the rows 1 and 2 of the full space), the density matrix of the first state gives two results, not one. -/
theorem C101_fails_mixed : ∃ oA oB,
    call false 2 2 (Ns := 2) (fun i k => if i = k.val + 1 then 1 else 0) id (· / ·) (.mat false 2 fun k l => if k = 0 ∧ l = 0 then 1 else 0)
      (some [0]) true false true = .ok (oA, oB) ∧ oA.shape = [2] ∧ oA.mats.length = 2 ∧
    (meant false (.mat false 2 fun k l => if k = 0 ∧ l = 0 then 1 else 0 : State 2)).length = 1 :=
  ⟨_, _, rfl, rfl, rfl, rfl⟩

/-- One density matrix gives an array with three dimensions, although one state gives a matrix. -/
theorem C101_fails_shape : ∃ oA oB oA' oB',
    call false 2 2 (Ns := 4) (fun i k => if i = k.val then 1 else 0) id (· / ·) (.mat false 4 fun _ _ => 1) (some [0]) true false false =
      .ok (oA, oB) ∧ oA.shape = [1, 2, 2] ∧
    call false 2 2 (Ns := 4) (fun i k => if i = k.val then 1 else 0) id (· / ·) (.vec fun _ => 1) (some [0]) true false false =
      .ok (oA', oB') ∧ oA'.shape = [2, 2] := by
  obtain ⟨B, -, oA, oB, h1, h2, -⟩ := C101_traces_partial (L := 2) (d := 2) (Ns := 4) false (fun i k => if i = k.val then 1 else 0) id (· / ·)
    (fun l => List.Perm.refl _) (fun _ _ _ => rfl) (by norm_num) (by norm_num) (by norm_num) [0] (by simp) (by simp) (.mat false 4 fun _ _ => 1)
    true false false (by simp [Proper])
  obtain ⟨B', -, oA', oB', h1', h2', -⟩ := C101_traces_partial (L := 2) (d := 2) (Ns := 4) false (fun i k => if i = k.val then 1 else 0) id (· / ·)
    (fun l => List.Perm.refl _) (fun _ _ _ => rfl) (by norm_num) (by norm_num) (by norm_num) [0] (by simp) (by simp) (.vec fun _ => 1)
    true false false trivial
  exact ⟨oA, oB, oA', oB', h1, by simpa [shapeOf, usedOrder] using h2, h1', by simpa [shapeOf, usedOrder, squeeze] using h2'⟩

/-! ### Non-vacuity -/

/-- The sites 2 and 0 of four, and three states at once. -/
example : ([2, 0] : List (Fin 4)).Nodup ∧ ([2, 0] : List (Fin 4)).length < 4 ∧ usedOrder true ([2, 0] : List (Fin 4)) = [0, 2] ∧
    Proper (2 ^ 4) false false false (.mat false 3 fun _ _ => 0 : State 6) ∧ Proper (2 ^ 4) false false false (.mat false 6 fun _ _ => 0 : State 6) ∧
    Proper (2 ^ 4) true false true (.mat true 3 fun _ _ => 0 : State 6) ∧ (∀ l : List ℕ, (id l).Perm l) := by
  refine ⟨by decide, by decide, by decide, ?_, ?_, ?_, fun l => List.Perm.refl _⟩ <;> simp [Proper]

example : (∃ s ∈ [(0 : ℤ), 4], s < 0 ∨ ((4 : ℕ) : ℤ) ≤ s) := ⟨4, by simp, by simp⟩

end Props
