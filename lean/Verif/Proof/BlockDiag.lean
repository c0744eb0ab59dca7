import Verif.Model.BlockDiag
import Verif.Spec.DirectSum
import Verif.Proof.Consolidate

namespace Proof.BlockDiag
open Model.BlockDiag Model.Consolidate Model.Ham Model.Drive Proof.Ham Proof.Consolidate Spec

variable {O I F A T R K V β : Type}

/-! ### Order of first appearance -/

section Firsts

variable [DecidableEq K]

theorem firsts_filter (p : K → Bool) (l : List K) : firsts (l.filter p) = (firsts l).filter p := by
  induction l with
  | nil => rfl
  | cons k l ih =>
    rw [List.filter_cons, firsts, List.filter_cons]
    split
    · rw [firsts, ih, List.filter_comm]
    · rename_i h
      rw [ih, List.filter_filter]
      refine List.filter_congr fun x _ => ?_
      by_cases hx : x = k
      · subst hx; simp [h]
      · simp [hx]

theorem firsts_map_firsts {L : Type} [DecidableEq L] (g : K → L) (l : List K) : firsts ((firsts l).map g) = firsts (l.map g) := by
  induction l with
  | nil => rfl
  | cons k l ih =>
    rw [firsts, List.map_cons, List.map_cons, firsts, firsts, ← ih, ← firsts_filter (K := L), ← firsts_filter (K := L)]
    congr 2
    rw [List.filter_map, List.filter_map, List.filter_filter]
    refine congrArg _ (List.filter_congr fun x _ => ?_)
    by_cases hx : x = k
    · subst hx; simp
    · simp [hx]

theorem upsert_fold_keys {E : Type} (key : E → K) (v : E → V) (g : E → V → V) (l : List E) : ∀ d : List (K × V),
    ((l.foldl (fun d e => upsert (key e) (v e) (g e) d) d).map Prod.fst) =
      d.map Prod.fst ++ (firsts (l.map key)).filter fun k => decide (k ∉ d.map Prod.fst) := by
  induction l with
  | nil => simp [firsts]
  | cons e l ih =>
    intro d
    rw [List.foldl_cons, ih, upsert_keys, List.map_cons, firsts, List.filter_cons]
    split
    · rename_i h
      rw [if_neg (by simpa using h), List.filter_filter]
      refine congrArg _ (List.filter_congr fun x _ => ?_)
      by_cases hx : x = key e
      · subst hx; simp only [List.mem_map, decide_not] at h ⊢; simp [h]
      · simp [hx]
    · rename_i h
      rw [if_pos (by simpa using h), List.append_assoc, List.singleton_append, List.filter_filter]
      refine congrArg _ (congrArg _ (List.filter_congr fun x _ => ?_))
      simp only [List.mem_append, List.mem_singleton, not_or, Bool.decide_and, ne_eq]

end Firsts

variable [DecidableEq O] [DecidableEq I] [DecidableEq F] [DecidableEq A]

/-- The drives appear in the dictionary in the order of their first appearance in the list. -/
theorem consolidate_keys [Add R] (big : R → Bool) (l : List (O × List (R × I) × F × List A)) :
    (consolidateDynamic big l).map Prod.fst = firsts (l.map fun e => e.2.2) := by
  unfold consolidateDynamic
  rw [upsert_fold_keys (key := fun e : (O × F × List A) × List (I × R) => e.1.2) (v := fun e => entries big e.1.1 e.2)
    (g := fun e x => x ++ entries big e.1.1 e.2)]
  simp only [List.map_nil, List.not_mem_nil, not_false_eq_true, decide_true, List.filter_true, List.nil_append]
  have hg : (gather (l.map fun e => ((e.1, e.2.2.1, e.2.2.2), e.2.1))).map Prod.fst = firsts (l.map fun e => (e.1, e.2.2)) := by
    unfold gather
    rw [upsert_fold_keys (key := fun e : (O × F × List A) × List (R × I) => e.1)]
    simp [Function.comp_def]
  rw [show (fun e : (O × F × List A) × List (I × R) => e.1.2) = Prod.snd ∘ Prod.fst from rfl, ← List.map_map, hg, firsts_map_firsts,
    List.map_map]
  rfl

/-! ### Direct sums -/

section Sums

variable [CommRing R] {dim : β → Nat}

theorem blockDiag_dim (M : (b : β) → Matrix (Fin (dim b)) (Fin (dim b)) R) (bs : List β) :
    (blockDiag (bs.map fun b => ofMat (M b))).dim = (bs.map dim).sum := by
  induction bs with
  | nil => rfl
  | cons b bs ih =>
    rw [List.map_cons, blockDiag, List.map_cons, List.sum_cons, ← ih]
    rfl

theorem blockDiag_val (M : (b : β) → Matrix (Fin (dim b)) (Fin (dim b)) R) (bs : List β) : ∀ i j,
    (blockDiag (bs.map fun b => ofMat (M b))).val i j = directSum dim M bs i j := by
  induction bs with
  | nil => intro i j; rfl
  | cons b bs ih =>
    intro i j
    rw [List.map_cons, blockDiag, directSum, SqMat.sum]
    simp only [ih]
    have hd : (ofMat (M b)).dim = dim b := rfl
    rw [hd]
    by_cases h : i < dim b ∧ j < dim b
    · rw [dif_pos h, if_pos h]; simp [ofMat, h]
    · rw [dif_neg h, if_neg h]

theorem directSum_add (M M' : (b : β) → Matrix (Fin (dim b)) (Fin (dim b)) R) (bs : List β) : ∀ i j,
    directSum dim (fun b => M b + M' b) bs i j = directSum dim M bs i j + directSum dim M' bs i j := by
  induction bs with
  | nil => intro i j; simp [directSum]
  | cons b bs ih =>
    intro i j
    simp only [directSum, ih]
    split
    · rfl
    · split <;> simp

theorem directSum_smul (c : R) (M : (b : β) → Matrix (Fin (dim b)) (Fin (dim b)) R) (bs : List β) : ∀ i j,
    directSum dim (fun b => c • M b) bs i j = c * directSum dim M bs i j := by
  induction bs with
  | nil => intro i j; simp [directSum]
  | cons b bs ih =>
    intro i j
    simp only [directSum, ih]
    split
    · rfl
    · split <;> simp

theorem directSum_zero (bs : List β) : ∀ i j, directSum dim (fun b => (0 : Matrix (Fin (dim b)) (Fin (dim b)) R)) bs i j = 0 := by
  intro i j
  have := directSum_smul (0 : R) (fun b => (0 : Matrix (Fin (dim b)) (Fin (dim b)) R)) bs i j
  simpa using this

theorem directSum_listSum {E : Type} (l : List E) (M : E → (b : β) → Matrix (Fin (dim b)) (Fin (dim b)) R) (bs : List β) (i j : Nat) :
    directSum dim (fun b => (l.map fun e => M e b).sum) bs i j = (l.map fun e => directSum dim (M e) bs i j).sum := by
  induction l with
  | nil => simpa using directSum_zero bs i j
  | cons e l ih =>
    simp only [List.map_cons, List.sum_cons]
    rw [directSum_add, ih]

/-! ### Collecting the matrices -/

/-- Matrices of all blocks, one list for every entry of `vs`. -/
theorem append_full {E : Type} (vs : List E) (g : E → List (SqMat R)) (a : E → SqMat R) :
    append (vs.map g) (vs.map a) = some (vs.map fun v => g v ++ [a v]) := by
  induction vs with
  | nil => rfl
  | cons v vs ih => simp [append, ih]

theorem foldlM_append {E : Type} (vs : List E) (a : E → β → SqMat R) (bs : List β) : ∀ g : E → List (SqMat R),
    (bs.map fun b => vs.map fun v => a v b).foldlM append (vs.map g) = some (vs.map fun v => g v ++ bs.map fun b => a v b) := by
  induction bs with
  | nil => intro g; simp
  | cons b bs ih =>
    intro g
    rw [List.map_cons, List.foldlM_cons, append_full vs g (fun v => a v b)]
    change List.foldlM append (vs.map fun v => g v ++ [a v b]) _ = _
    rw [ih]
    simp

/-- A list whose length only grows by one never gets longer than the number of blocks. -/
theorem append_total : ∀ (slots : List (List (SqMat R))) (mats : List (SqMat R)) (r), append slots mats = some r →
    r.length = slots.length ∧ mats.length ≤ slots.length ∧
      ∀ k : Nat, r[k]? = (slots[k]?).map fun s => s ++ (mats[k]?).toList
  | slots, [], r, h => by
    simp only [append, Option.some.injEq] at h
    subst h
    exact ⟨rfl, by simp, fun k => by simp⟩
  | [], _ :: _, r, h => by simp [append] at h
  | s :: slots, M :: mats, r, h => by
    simp only [append, Option.map_eq_some_iff] at h
    obtain ⟨r', h', rfl⟩ := h
    obtain ⟨h1, h2, h3⟩ := append_total slots mats r' h'
    refine ⟨by simp [h1], by simpa using h2, fun k => ?_⟩
    cases k with
    | zero => simp
    | succ k => simpa using h3 k

end Sums

/-! ### The whole hamiltonian -/

section Whole

variable [NormedCommRing R] [StarRing R] {dim : β → Nat} {S : F × List A → Prop} {env : Env F A R}

omit [DecidableEq F] [DecidableEq A] [StarRing R] in
theorem initTerm_atoms (H : PyHash F A) {N : Nat} (l : List ((F × List A) × Mat (Fin N) (Fin N) R)) :
    ∀ d, (∀ x ∈ d, ∃ q : F × List A, x.1 = .atom (.base q.1 q.2)) →
      ∃ d', (l.map fun e => ((Fn.atom (.base e.1.1 e.1.2) : Fn F A), e.2)).foldlM (initTerm H) d = some d' := by
  induction l with
  | nil => intro d _; exact ⟨d, rfl⟩
  | cons e l ih =>
    intro d hd
    rw [List.map_cons, List.foldlM_cons, initTerm, mem, Model.Drive.hash, hashList]
    exact ih _ (by
      intro x hx
      dsimp only at hx
      split at hx
      · have key : ∀ (d : List (Fn F A × Mat (Fin N) (Fin N) R)) f g, (∀ x ∈ d, ∃ q : F × List A, x.1 = .atom (.base q.1 q.2)) →
            ∀ x ∈ update H f g d, ∃ q : F × List A, x.1 = .atom (.base q.1 q.2) := by
          intro d f g
          induction d with
          | nil => intro _ x hx; simp [update] at hx
          | cons y d ihd =>
            intro h x hx
            rw [update] at hx
            split at hx
            · rcases List.mem_cons.1 hx with rfl | hx
              · exact h y (by simp)
              · exact h x (by simp [hx])
            · rcases List.mem_cons.1 hx with rfl | hx
              · exact h x (by simp)
              · exact ihd (fun z hz => h z (by simp [hz])) x hx
        exact key _ _ _ hd x hx
      · rcases List.mem_append.1 hx with hx | hx
        · exact hd x hx
        · rw [List.mem_singleton.1 hx]; exact ⟨e.1, rfl⟩)

omit [DecidableEq F] [DecidableEq A] in
/-- What `assemble` returns: drive `o` of the list `order` is paired with the matrices at the same position. -/
theorem assemble_ok {E : Type} (hc : NoCollision env.hash S 1) (order : List (F × List A)) (hS : ∀ o ∈ order, S o) (vs : List E)
    (hl : order.length = vs.length) (st : (b : β) → Matrix (Fin (dim b)) (Fin (dim b)) R)
    (M : E → (b : β) → Matrix (Fin (dim b)) (Fin (dim b)) R) (bs : List β) (app : F → List A → T → R) :
    ∃ h, assemble env.hash order (bs.map fun b => ofMat (st b)) (bs.map fun b => vs.map fun v => ofMat (M v b)) = some h ∧
      h.1 = (bs.map dim).sum ∧ ∀ (t : T) (i j : Fin h.1), toMatrix app h.2 t i j =
        directSum dim (fun b => st b + ((order.zip vs).map fun e => app e.1.1 e.1.2 t • M e.2 b).sum) bs i j := by
  have hslots : (bs.map fun b => vs.map fun v => ofMat (M v b)).foldlM append (order.map fun _ => []) =
      some (vs.map fun v => bs.map fun b => ofMat (M v b)) := by
    have h0 : (order.map fun _ => ([] : List (SqMat R))) = vs.map fun _ => [] := by
      rw [List.map_const', List.map_const', hl]
    rw [h0, foldlM_append vs (fun v b => ofMat (M v b)) bs (fun _ => [])]
    simp
  have hres : ∀ (M : (b : β) → Matrix (Fin (dim b)) (Fin (dim b)) R),
      resize (blockDiag (bs.map fun b => ofMat (st b))).dim (blockDiag (bs.map fun b => ofMat (M b))) =
        some ⟨.sparse, Matrix.of fun i j => directSum dim M bs i j⟩ := by
    intro M
    rw [resize, if_pos (by rw [blockDiag_dim, blockDiag_dim])]
    simp only [blockDiag_val]
  unfold assemble
  rw [hslots]
  simp only [Option.bind_some]
  rw [hres]
  simp only [Option.bind_some]
  generalize hN : (blockDiag (bs.map fun b => ofMat (st b))).dim = N at hres
  have hm : ((order.zip (vs.map fun v => bs.map fun b => ofMat (M v b))).mapM fun e =>
      (resize N (blockDiag e.2)).map fun M => ((Fn.atom (.base e.1.1 e.1.2) : Fn F A), M)) =
      some ((order.zip vs).map fun e => (Fn.atom (.base e.1.1 e.1.2), ⟨.sparse, Matrix.of fun i j => directSum dim (M e.2) bs i j⟩)) := by
    rw [List.zip_map_right, List.mapM_map]
    rw [show ((fun e : (F × List A) × List (SqMat R) => (resize N (blockDiag e.2)).map fun M => ((Fn.atom (.base e.1.1 e.1.2) : Fn F A), M)) ∘
        Prod.map id fun v => bs.map fun b => ofMat (M v b)) =
        fun e : (F × List A) × E => some (Fn.atom (.base e.1.1 e.1.2), ⟨.sparse, Matrix.of fun i j => directSum dim (M e.2) bs i j⟩) from by
      funext e
      simp only [Function.comp, Prod.map, id, hres, Option.map_some]]
    generalize order.zip vs = z
    induction z with
    | nil => rfl
    | cons e z ih => rw [List.mapM_cons, ih]; rfl
  rw [hm]
  simp only [Option.bind_some]
  have hex := initTerm_atoms env.hash ((order.zip vs).map fun e =>
    (e.1, (⟨.sparse, Matrix.of fun i j => directSum dim (M e.2) bs i j⟩ : Mat (Fin N) (Fin N) R))) [] (by simp)
  rw [List.map_map] at hex
  obtain ⟨d', hd'⟩ := hex
  have hof : ofMatrices env.hash [(⟨.sparse, Matrix.of fun i j => directSum dim st bs i j⟩ : Mat (Fin N) (Fin N) R)]
      ((order.zip vs).map fun e => (Fn.atom (.base e.1.1 e.1.2), ⟨.sparse, Matrix.of fun i j => directSum dim (M e.2) bs i j⟩)) =
      some ⟨([(⟨.sparse, Matrix.of fun i j => directSum dim st bs i j⟩ : Mat (Fin N) (Fin N) R)].foldl Mat.add Mat.zero).asArray, d'⟩ := by
    unfold ofMatrices
    have hd2 : ((order.zip vs).map fun e => ((Fn.atom (.base e.1.1 e.1.2) : Fn F A),
      (⟨.sparse, Matrix.of fun i j => directSum dim (M e.2) bs i j⟩ : Mat (Fin N) (Fin N) R))).foldlM (initTerm env.hash) [] = some d' := hd'
    rw [hd2]; rfl
  refine ⟨_, by rw [hof]; rfl, hN.symm.trans (blockDiag_dim st bs), fun t i j => ?_⟩
  have hkeys : Keys S 1 ((order.zip vs).map fun e => ((Fn.atom (.base e.1.1 e.1.2) : Fn F A),
      (⟨.sparse, Matrix.of fun i j => directSum dim (M e.2) bs i j⟩ : Mat (Fin N) (Fin N) R))) := by
    intro x hx
    obtain ⟨e, he, rfl⟩ := List.mem_map.1 hx
    exact ⟨by simpa [parts, Atom.part] using hS e.1 (List.of_mem_zip he).1, by simp [degree], trivial⟩
  have hv := (ofMatrices_ok (app := app) (t := t) hc hkeys hof).2.1
  dsimp only
  rw [hv, directSum_add, directSum_listSum]
  simp only [List.map_cons, List.map_nil, List.sum_cons, List.sum_nil, add_zero, Matrix.add_apply, Matrix.of_apply]
  congr 1
  generalize order.zip vs = z
  induction z with
  | nil => simp [dsum]
  | cons e z ih =>
    rw [List.map_cons, dsum_cons, List.map_cons, List.sum_cons, Matrix.add_apply, ih, directSum_smul]
    rfl

omit [StarRing R] in
/-- Without almost zero matrices the dictionary of drives is the consolidated list. -/
theorem makeDynamic_full {n : Type} (hc : NoCollision env.hash S 1) (l : List ((F × List A) × Matrix n n R)) (hn : (l.map Prod.fst).Nodup)
    (hS : ∀ e ∈ l, S e.1) (hT : ∀ e ∈ l, env.tiny e.2 = false) :
    makeDynamic env l = l.map fun e => (Fn.atom (.base e.1.1 e.1.2), ⟨.sparse, e.2⟩) := by
  have main : ∀ (l : List ((F × List A) × Matrix n n R)) (d : List (Fn F A × Mat n n R)), (l.map Prod.fst).Nodup →
      (∀ e ∈ l, S e.1) → (∀ e ∈ l, env.tiny e.2 = false) →
      (∀ x ∈ d, ∃ q : F × List A, x.1 = .atom (.base q.1 q.2) ∧ S q ∧ q ∉ l.map Prod.fst) →
      l.foldl (fun d e =>
        if env.tiny e.2 then d
        else
          let f : Fn F A := .atom (.base e.1.1 e.1.2)
          if d.any fun x => decide (Model.Drive.eq env.hash x.1 f = some true) then
            update env.hash f (fun _ => ⟨.sparse, e.2⟩) d
          else d ++ [(f, ⟨.sparse, e.2⟩)]) d = d ++ l.map fun e => (Fn.atom (.base e.1.1 e.1.2), ⟨.sparse, e.2⟩) := by
    intro l
    induction l with
    | nil => simp
    | cons e l ih =>
      intro d hn hS hT hd
      have hn' := List.nodup_cons.1 (by simpa using hn : (e.1 :: l.map Prod.fst).Nodup)
      have hany : (d.any fun x => decide (Model.Drive.eq env.hash x.1 (.atom (.base e.1.1 e.1.2)) = some true)) = false := by
        rw [← Bool.not_eq_true, List.any_eq_true]
        rintro ⟨x, hx, h⟩
        obtain ⟨q, h1, h2, h3⟩ := hd x hx
        rw [h1] at h
        have := atom_inj hc h2 (hS e (by simp)) (by simpa using h)
        exact h3 (by rw [this]; simp)
      rw [List.foldl_cons, hT e (by simp)]
      simp only [hany, Bool.false_eq_true, if_false]
      rw [ih _ hn'.2 (fun x hx => hS x (by simp [hx])) (fun x hx => hT x (by simp [hx])) (fun x hx => by
        rcases List.mem_append.1 hx with hx | hx
        · obtain ⟨q, h1, h2, h3⟩ := hd x hx
          exact ⟨q, h1, h2, fun h => h3 (by rw [List.map_cons]; exact List.mem_cons_of_mem _ h)⟩
        · rw [List.mem_singleton.1 hx]
          exact ⟨e.1, rfl, hS e (by simp), hn'.1⟩)]
      simp
  exact (main l [] hn hS hT (by simp)).trans (List.nil_append _)

end Whole

end Proof.BlockDiag
