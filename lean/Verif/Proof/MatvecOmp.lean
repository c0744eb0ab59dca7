import Verif.Proof.Matvec
/-! Parallel loops: products with atomic additions and with private cells. -/
namespace Proof.Matvec
open Spec Model.Matvec

variable {R : Type} [CommRing R] {M : Nat}

theorem run_cons (e : Nat × MemOp (ZMod M) R) (l : List (Nat × MemOp (ZMod M) R)) (s : Shared M R) :
    run (e :: l) s = run l (step e s) := rfl

/-- operations on other addresses do not matter -/
theorem step_other (e : Nat × MemOp (ZMod M) R) (p : ZMod M) (h : e.2.addr ≠ p) (s : Shared M R) (t : Nat) :
    (step e s).y p = s.y p ∧ (step e s).tmp t p = s.tmp t p := by
  obtain ⟨t', o⟩ := e
  cases o <;> simp only [MemOp.addr] at h
  · exact ⟨Function.update_of_ne (Ne.symm h) _ _, rfl⟩
  · refine ⟨rfl, ?_⟩
    show Function.update s.tmp t' _ t p = _
    by_cases ht : t = t'
    · subst ht; rw [Function.update_self, Function.update_of_ne (Ne.symm h)]
    · rw [Function.update_of_ne ht]
  · exact ⟨Function.update_of_ne (Ne.symm h) _ _, rfl⟩
  · exact ⟨Function.update_of_ne (Ne.symm h) _ _, rfl⟩

/-- what happens at an address depends on what was there and on the temporaries for it -/
theorem step_congr (e : Nat × MemOp (ZMod M) R) (p : ZMod M) (s s' : Shared M R)
    (h : s.y p = s'.y p ∧ ∀ t, s.tmp t p = s'.tmp t p) :
    (step e s).y p = (step e s').y p ∧ ∀ t, (step e s).tmp t p = (step e s').tmp t p := by
  by_cases hp : e.2.addr = p
  · obtain ⟨t', o⟩ := e
    cases o <;> simp only [MemOp.addr] at hp <;> subst hp <;> simp only [step, addTo]
    · exact ⟨by simp, h.2⟩
    · refine ⟨h.1, fun t => ?_⟩
      by_cases ht : t = t'
      · subst ht; simp [h.1]
      · rw [Function.update_of_ne ht, Function.update_of_ne ht]; exact h.2 t
    · exact ⟨by simp [h.2 t'], h.2⟩
    · exact ⟨by simp [h.1], h.2⟩
  · exact ⟨by rw [(step_other e p hp s 0).1, (step_other e p hp s' 0).1, h.1],
      fun t => by rw [(step_other e p hp s t).2, (step_other e p hp s' t).2, h.2]⟩

theorem run_congr (l : List (Nat × MemOp (ZMod M) R)) (p : ZMod M) : ∀ (s s' : Shared M R),
    (s.y p = s'.y p ∧ ∀ t, s.tmp t p = s'.tmp t p) →
    (run l s).y p = (run l s').y p ∧ ∀ t, (run l s).tmp t p = (run l s').tmp t p := by
  induction l with
  | nil => intro s s' h; exact h
  | cons e l ih => intro s s' h; rw [run_cons, run_cons]; exact ih _ _ (step_congr e p s s' h)

/-- only the operations on an address matter for it -/
theorem run_at (l : List (Nat × MemOp (ZMod M) R)) (p : ZMod M) (s : Shared M R) :
    (run l s).y p = (run (l.filter fun e => e.2.addr = p) s).y p := by
  induction l generalizing s with
  | nil => rfl
  | cons e l ih =>
    by_cases h : e.2.addr = p
    · rw [List.filter_cons_of_pos (by simpa using h), run_cons, run_cons, ih]
    · rw [List.filter_cons_of_neg (by simpa using h), run_cons, ih]
      exact (run_congr _ p _ _ ⟨(step_other e p h s 0).1, fun t => (step_other e p h s t).2⟩).1

/-- an address used by one iteration only -/
theorem run_private (T : Nat) (prog : Nat → List (MemOp (ZMod M) R)) (l : List (Nat × MemOp (ZMod M) R))
    (hl : Interleaving T prog l) (p : ZMod M) (t : Nat) (ht : t < T)
    (hp : ∀ t' < T, t' ≠ t → ∀ o ∈ prog t', o.addr ≠ p) (s : Shared M R) :
    (run l s).y p = (run (((prog t).filter fun o => o.addr = p).map fun o => (t, o)) s).y p := by
  rw [run_at]
  congr 2
  have h1 : (l.filter fun e => e.2.addr = p) = ((l.filter fun e => e.1 = t).filter fun e => e.2.addr = p) := by
    rw [List.filter_filter]
    apply List.filter_congr
    intro e he
    by_cases h : e.2.addr = p
    · have : e.1 = t := by
        by_contra hc
        have hlt := hl.1 e he
        refine hp e.1 hlt hc e.2 ?_ h
        rw [← hl.2 e.1 hlt]
        exact List.mem_map.2 ⟨e, List.mem_filter.2 ⟨he, by simp⟩, rfl⟩
      simp [h, this]
    · simp [h]
  rw [h1, ← hl.2 t ht, List.filter_map, List.map_map]
  rw [List.map_congr_left (g := id), List.map_id]
  · rfl
  · intro e he
    rw [List.mem_filter, List.mem_filter] at he
    have : e.1 = t := by simpa using he.1.2
    simp only [Function.comp, id]
    rw [← this]

/-- an address used by no iteration -/
theorem run_unused (T : Nat) (prog : Nat → List (MemOp (ZMod M) R)) (l : List (Nat × MemOp (ZMod M) R))
    (hl : Interleaving T prog l) (p : ZMod M) (hp : ∀ t < T, ∀ o ∈ prog t, o.addr ≠ p) (s : Shared M R) :
    (run l s).y p = s.y p := by
  rw [run_at, List.filter_eq_nil_iff.2]
  · rfl
  · intro e he
    have hlt := hl.1 e he
    have : e.2 ∈ prog e.1 := by
      rw [← hl.2 e.1 hlt]
      exact List.mem_map.2 ⟨e, List.mem_filter.2 ⟨he, by simp⟩, rfl⟩
    simpa using hp e.1 hlt e.2 this

theorem sum_by_iteration (T : Nat) (prog : Nat → List (MemOp (ZMod M) R)) (l : List (Nat × MemOp (ZMod M) R))
    (hl : Interleaving T prog l) (f : MemOp (ZMod M) R → R) :
    (l.map fun e => f e.2).sum = ∑ t ∈ Finset.range T, ((prog t).map f).sum := by
  have h1 : ∀ (l : List (Nat × MemOp (ZMod M) R)), (∀ e ∈ l, e.1 < T) →
      (l.map fun e => f e.2).sum = ∑ t ∈ Finset.range T, (((l.filter fun e => e.1 = t).map (·.2)).map f).sum := by
    intro l
    induction l with
    | nil => simp
    | cons e l ih =>
      intro h
      rw [List.map_cons, List.sum_cons, ih fun e' he' => h e' (by simp [he'])]
      have : f e.2 = ∑ t ∈ Finset.range T, if t = e.1 then f e.2 else 0 := by
        rw [Finset.sum_ite_eq', if_pos (Finset.mem_range.2 (h e (by simp)))]
      conv_lhs => rw [this]
      rw [← Finset.sum_add_distrib]
      apply Finset.sum_congr rfl
      intro t _
      by_cases ht : e.1 = t
      · rw [List.filter_cons_of_pos (by simpa using ht), if_pos ht.symm]; simp
      · rw [List.filter_cons_of_neg (by simpa using ht), if_neg (fun hc => ht hc.symm), zero_add]
  rw [h1 l hl.1]
  apply Finset.sum_congr rfl
  intro t ht
  rw [hl.2 t (Finset.mem_range.1 ht)]

/-- value added at `p` by an atomic addition -/
def atomicPart (p : ZMod M) : MemOp (ZMod M) R → R
  | .atomicAdd q v => if q = p then v else 0
  | _ => 0

/-- the operation is an atomic addition -/
def IsAtomic : MemOp (ZMod M) R → Prop
  | .atomicAdd _ _ => True
  | _ => False

theorem run_atomic (l : List (Nat × MemOp (ZMod M) R)) (h : ∀ e ∈ l, IsAtomic e.2) (p : ZMod M) (s : Shared M R) :
    (run l s).y p = s.y p + (l.map fun e => atomicPart p e.2).sum := by
  induction l generalizing s with
  | nil => simp [run]
  | cons e l ih =>
    rw [run_cons, ih (fun e' he' => h e' (by simp [he'])), List.map_cons, List.sum_cons]
    have he := h e (by simp)
    obtain ⟨t, o⟩ := e
    cases o with
    | atomicAdd q v => simp only [step, addTo_apply, atomicPart]; ring
    | _ => exact absurd he (by simp [IsAtomic])

theorem run_atomic_interleaving (T : Nat) (prog : Nat → List (MemOp (ZMod M) R)) (l : List (Nat × MemOp (ZMod M) R))
    (hl : Interleaving T prog l) (h : ∀ t < T, ∀ o ∈ prog t, IsAtomic o) (p : ZMod M) (s : Shared M R) :
    (run l s).y p = s.y p + ∑ t ∈ Finset.range T, ((prog t).map (atomicPart p)).sum := by
  rw [run_atomic, sum_by_iteration T prog l hl]
  intro e he
  have hlt := hl.1 e he
  refine h e.1 hlt e.2 ?_
  rw [← hl.2 e.1 hlt]
  exact List.mem_map.2 ⟨e, List.mem_filter.2 ⟨he, by simp⟩, rfl⟩

/-- the parallel zeroing loop -/
theorem zero_omp (ow : Bool) (nRow : Nat) (ys : Int) (hd : CellsDistinct M nRow ys) (l : List (Nat × MemOp (ZMod M) R))
    (hl : Interleaving (if ow then nRow else 0) (zeroOps ys) l) (s : Shared M R) (q : ZMod M) :
    (run l s).y q = zeroLoop ow nRow ys s.y q := by
  rw [zero_apply]
  by_cases h : ow = true ∧ ∃ i < nRow, q = ptr M (i * ys)
  · rw [if_pos h]
    obtain ⟨rfl, i, hi, rfl⟩ := h
    simp only [if_true] at hl
    rw [run_private nRow _ l hl _ i hi]
    · simp [zeroOps, MemOp.addr, run, step]
    · intro t' ht' hne o ho
      simp only [zeroOps, List.mem_singleton] at ho
      subst ho
      simp only [MemOp.addr]
      intro hc
      exact hne (hd t' ht' i hi hc)
  · rw [if_neg h]
    refine run_unused _ _ l hl q ?_ s
    intro t ht o ho hc
    simp only [zeroOps, List.mem_singleton] at ho
    subst ho
    simp only [MemOp.addr] at hc
    cases ow
    · simp at ht
    · exact h ⟨rfl, t, by simpa using ht, hc.symm⟩

theorem cscOmp_computes (parts : R → List R) (hparts : ∀ v, (parts v).sum = v) (ow : Bool) (nRow nCol : Nat)
    (A : Compressed R) (hA : A.Valid nCol nRow) (a : R) (xs : Int) (x : Mem M R) (ys : Int) (hd : CellsDistinct M nRow ys)
    (s s' : Shared M R) (h : CscOmp parts ow nRow nCol A a xs x ys s s') :
    Computes nRow nCol (cscEntry A) ow a (fun j => x (ptr M (j * xs))) (fun i => ptr M (i * ys)) s.y s'.y := by
  obtain ⟨l₁, l₂, h1, h2, rfl⟩ := h
  refine computes_of_adds ow nRow nCol _ a _ ys s.y _
    (cscAdd nCol A a (fun j => x (ptr M (j * xs))) (fun i => ptr M (i * ys))) ?_
    (cscAdd_cell nRow nCol A hA a _ (fun i => ptr M (i * ys)) hd) (cscAdd_rest nRow nCol A hA a _ (fun i => ptr M (i * ys)))
  intro q
  rw [run_atomic_interleaving nCol _ l₂ h2, zero_omp ow nRow ys hd l₁ h1]
  · congr 1
    unfold cscAdd
    apply Finset.sum_congr rfl
    intro j _
    unfold cscOps
    rw [List.map_flatMap, List.flatMap_def, List.sum_flatten, List.map_map]
    have hin : ∀ ii, ((atomicAdds parts (ptr M (A.Aj ii * ys)) (a * A.Ax ii * x (ptr M (j * xs)))).map (atomicPart q)).sum
        = if ptr M (A.Aj ii * ys) = q then a * A.Ax ii * x (ptr M (j * xs)) else 0 := by
      intro ii
      unfold atomicAdds
      rw [List.map_map]
      by_cases hq : ptr M (A.Aj ii * ys) = q
      · rw [if_pos hq]
        have : (atomicPart q ∘ fun u => MemOp.atomicAdd (ptr M (A.Aj ii * ys)) u) = (id : R → R) := by
          funext u; simp [Function.comp, atomicPart, hq]
        rw [this, List.map_id, hparts]
      · rw [if_neg hq]
        have : (atomicPart q ∘ fun u => MemOp.atomicAdd (ptr M (A.Aj ii * ys)) u) = (fun _ : R => (0 : R)) := by
          funext u; simp only [Function.comp, atomicPart, if_neg hq]
        rw [this]; simp
    have hfun : (List.sum ∘ fun ii => (atomicAdds parts (ptr M (A.Aj ii * ys)) (a * A.Ax ii * x (ptr M (j * xs)))).map (atomicPart q))
        = fun ii => if ptr M (A.Aj ii * ys) = q then a * A.Ax ii * x (ptr M (j * xs)) else 0 := by
      funext ii; exact hin ii
    rw [hfun, ← List.sum_toFinset _ (List.nodup_range')]
    apply Finset.sum_congr
    · ext k; simp [List.mem_range'_1]; omega
    · intro _ _; rfl
  · intro t _ o ho
    unfold cscOps atomicAdds at ho
    simp only [List.mem_flatMap, List.mem_map] at ho
    obtain ⟨_, _, u, _, rfl⟩ := ho
    trivial

/-- one diagonal in parallel -/
theorem dia_diag (nRow nCol L : Nat) (k : Int) (data : Nat → R) (i : Nat) (a : R) (xs : Int) (x : Mem M R) (ys : Int)
    (hd : CellsDistinct M nRow ys) (l : List (Nat × MemOp (ZMod M) R))
    (hl : Interleaving (diagLen nRow nCol L k) (diaOps L k data i a xs x ys) l) (s : Shared M R) (q : ZMod M) :
    (run l s).y q = s.y q + ∑ n ∈ Finset.range (diagLen nRow nCol L k),
      if ptr M ((((iStart k).toNat + n : Nat) : Int) * ys) = q then
        a * data (i * L + (jStart k).toNat + n) * x (ptr M ((((jStart k).toNat + n : Nat) : Int) * xs)) else 0 := by
  obtain ⟨c1, c2⟩ := start_cast k
  have hops : ∀ n, diaOps L k data i a xs x ys n = plainAdd (ptr M ((((iStart k).toNat + n : Nat) : Int) * ys))
      (a * data (i * L + (jStart k).toNat + n) * x (ptr M ((((jStart k).toNat + n : Nat) : Int) * xs))) := by
    intro n
    unfold diaOps
    simp only [Nat.cast_add, c1, c2, add_mul]
  by_cases hex : ∃ n < diagLen nRow nCol L k, ptr M ((((iStart k).toNat + n : Nat) : Int) * ys) = q
  · obtain ⟨n, hn, hnq⟩ := hex
    rw [run_private _ _ l hl q n hn]
    · rw [hops, Finset.sum_eq_single n]
      · rw [if_pos hnq]
        rw [← hnq]
        simp only [plainAdd, List.filter_cons, MemOp.addr, decide_true, if_true, List.filter_nil, List.map_cons, List.map_nil,
          run, List.foldl_cons, List.foldl_nil, step, Function.update_self]
      · intro m hm hmn
        rw [if_neg]
        intro hc
        have := hd _ (dia_row_lt (Finset.mem_range.1 hm)).1 _ (dia_row_lt hn).1 (hc.trans hnq.symm)
        omega
      · intro hc; exact absurd (Finset.mem_range.2 hn) hc
    · intro m hm hmn o ho
      rw [hops] at ho
      have ha : o.addr = ptr M ((((iStart k).toNat + m : Nat) : Int) * ys) := by
        simp only [plainAdd, List.mem_cons, List.not_mem_nil, or_false] at ho
        rcases ho with rfl | rfl <;> rfl
      rw [ha]
      intro hc
      have := hd _ (dia_row_lt hm).1 _ (dia_row_lt hn).1 (hc.trans hnq.symm)
      omega
  · push Not at hex
    rw [Finset.sum_eq_zero fun n hn => if_neg (hex n (Finset.mem_range.1 hn)), add_zero]
    refine run_unused _ _ l hl q ?_ s
    intro m hm o ho
    rw [hops] at ho
    have ha : o.addr = ptr M ((((iStart k).toNat + m : Nat) : Int) * ys) := by
      simp only [plainAdd, List.mem_cons, List.not_mem_nil, or_false] at ho
      rcases ho with rfl | rfl <;> rfl
    rw [ha]
    exact hex m hm

theorem dia_diagonals (nRow nCol L : Nat) (offsets : Nat → Int) (data : Nat → R) (a : R) (xs : Int) (x : Mem M R) (ys : Int)
    (hd : CellsDistinct M nRow ys) (i : Nat) (s s' : Shared M R)
    (h : DiaDiagonals nRow nCol L offsets data a xs x ys i s s') (q : ZMod M) :
    s'.y q = s.y q + diaAdd nRow nCol i L offsets data a (fun j => x (ptr M (j * xs))) (fun i => ptr M (i * ys)) q := by
  induction h with
  | none s => simp [diaAdd]
  | next h1 h2 ih =>
    rw [dia_diag nRow nCol L _ data _ a xs x ys hd _ h2, ih]
    unfold diaAdd
    rw [Finset.sum_range_succ, add_assoc]

theorem diaOmp_computes (ow : Bool) (nRow nCol nDiags L : Nat) (offsets : Nat → Int) (data : Nat → R) (a : R) (xs : Int)
    (x : Mem M R) (ys : Int) (hd : CellsDistinct M nRow ys) (s s' : Shared M R)
    (h : DiaOmp ow nRow nCol nDiags L offsets data a xs x ys s s') :
    Computes nRow nCol (diaEntry nDiags L offsets data) ow a (fun j => x (ptr M (j * xs))) (fun i => ptr M (i * ys)) s.y s'.y := by
  obtain ⟨l₁, h1, h2⟩ := h
  refine computes_of_adds ow nRow nCol _ a _ ys s.y _
    (diaAdd nRow nCol nDiags L offsets data a (fun j => x (ptr M (j * xs))) (fun i => ptr M (i * ys))) ?_
    (diaAdd_cell nRow nCol nDiags L offsets data a _ (fun i => ptr M (i * ys)) hd)
    (diaAdd_rest nRow nCol nDiags L offsets data a _ (fun i => ptr M (i * ys)))
  intro q
  rw [dia_diagonals nRow nCol L offsets data a xs x ys hd nDiags _ _ h2, zero_omp ow nRow ys hd l₁ h1]

end Proof.Matvec
