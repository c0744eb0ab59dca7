import Verif.Model.Amp
import Verif.Proof.Projector
import Mathlib.Tactic.Linarith
/-! Parallel stores, error flags and amplitudes of `representative`, `normalization`, `get_amp`. -/
namespace Proof.Amp
open Model Model.Amp Spec Proof.Symmetry Proof.Projector

/-! ### parallel stores -/

/-- sequential stores -/
def seq (l : List (Loc × Int)) (mem : Loc → Int) : Loc → Int := l.foldl store mem

theorem seq_append (a b : List (Loc × Int)) (mem : Loc → Int) : seq (a ++ b) mem = seq b (seq a mem) := by
  simp [seq]

theorem seq_untouched (a : Loc) (l : List (Loc × Int)) (h : ∀ w ∈ l, w.1 ≠ a) (mem : Loc → Int) :
    seq l mem a = mem a := by
  induction l generalizing mem with
  | nil => rfl
  | cons w l ih =>
    have : seq (w :: l) mem = seq l (store mem w) := rfl
    rw [this, ih (fun w hw => h w (by simp [hw]))]
    unfold store
    rw [if_neg (fun e => h w (by simp) e.symm)]

/-- the value of an element that is written does not depend on what it was -/
theorem seq_touched (a : Loc) (l : List (Loc × Int)) (h : ∃ w ∈ l, w.1 = a) (mem mem' : Loc → Int) :
    seq l mem a = seq l mem' a := by
  induction l generalizing mem mem' with
  | nil => obtain ⟨w, hw, _⟩ := h; simp at hw
  | cons w l ih =>
    have e : ∀ m, seq (w :: l) m = seq l (store m w) := fun _ => rfl
    rw [e, e]
    by_cases h2 : ∃ w ∈ l, w.1 = a
    · exact ih h2 _ _
    · push Not at h2
      rw [seq_untouched a l h2, seq_untouched a l h2]
      obtain ⟨w', hw', ha⟩ := h
      rcases List.mem_cons.1 hw' with rfl | h3
      · simp [store, ha]
      · exact absurd ha (h2 w' h3)

theorem foldl_eq_seq (l : List (Nat × (Loc × Int))) (mem : Loc → Int) :
    l.foldl (fun mem e => store mem e.2) mem = seq (l.map (·.2)) mem := by
  unfold seq
  rw [List.foldl_map]

/-- the last store to an element is the last store of some thread -/
theorem last_store (a : Loc) (l : List (Nat × (Loc × Int))) (mem : Loc → Int) :
    (∀ e ∈ l, e.2.1 ≠ a) ∨
    ∃ t, (∃ e ∈ l, e.1 = t ∧ e.2.1 = a) ∧
      seq (l.map (·.2)) mem a = seq ((l.filter fun e => e.1 = t).map (·.2)) mem a := by
  induction l using List.reverseRecOn with
  | nil => left; simp
  | append_singleton l e ih =>
    by_cases he : e.2.1 = a
    · right
      refine ⟨e.1, ⟨e, by simp, rfl, he⟩, ?_⟩
      rw [List.filter_append, List.map_append, List.map_append, seq_append, seq_append]
      simp [seq, store, he]
    · have drop : ∀ (p : List (Loc × Int)) m, seq (p ++ [e.2]) m a = seq p m a := by
        intro p m
        rw [seq_append]
        simp only [seq, List.foldl_cons, List.foldl_nil, store]
        rw [if_neg (fun h => he h.symm)]
      rcases ih with h | ⟨t, ⟨e', h1, h2, h3⟩, h4⟩
      · left
        intro x hx
        rcases List.mem_append.1 hx with h5 | h5
        · exact h x h5
        · rw [List.mem_singleton.1 h5]; exact he
      · right
        refine ⟨t, ⟨e', by simp [h1], h2, h3⟩, ?_⟩
        rw [List.map_append, List.map_singleton, drop, h4, List.filter_append, List.map_append]
        by_cases ht : e.1 = t
        · simp only [List.filter_cons, ht, decide_true, if_true, List.filter_nil, List.map_cons, List.map_nil]
          rw [drop]
        · simp [ht]

/-- iteration an element belongs to -/
def _root_.Model.Amp.Loc.iter : Loc → Nat
  | .r i => i
  | .g i _ => i
  | .sign i => i

/-- stores of several iterations, possibly repeated: an element gets the value of its own iteration -/
theorem seq_blocks (f : Nat → List (Loc × Int)) (hf : ∀ i, ∀ w ∈ f i, w.1.iter = i) (a : Loc) (is : List Nat)
    (mem : Loc → Int) (ha : a.iter ∈ is) : seq (is.flatMap f) mem a = seq (f a.iter) mem a := by
  by_cases hw : ∃ w ∈ f a.iter, w.1 = a
  · have main : ∀ (is : List Nat) mem, a.iter ∈ is → seq (is.flatMap f) mem a = seq (f a.iter) mem a := by
      intro is
      induction is using List.reverseRecOn with
      | nil => intro _ h; simp at h
      | append_singleton is i ih =>
        intro mem h
        rw [List.flatMap_append, seq_append]
        simp only [List.flatMap_cons, List.flatMap_nil, List.append_nil]
        by_cases hi : i = a.iter
        · subst hi
          exact seq_touched a _ hw _ _
        · rw [seq_untouched a (f i)]
          · apply ih
            rcases List.mem_append.1 h with h | h
            · exact h
            · exact absurd (List.mem_singleton.1 h).symm hi
          · intro w hwi e
            exact hi ((hf i w hwi).symm.trans (by rw [e]))
    exact main is mem ha
  · push Not at hw
    rw [seq_untouched a (f a.iter) hw, seq_untouched]
    intro w hw' e
    obtain ⟨i, _, hi⟩ := List.mem_flatMap.1 hw'
    have := hf i w hi
    rw [e] at this
    exact hw w (by rw [this]; exact hi) e

/-- all schedules give what the iterations give one by one -/
theorem schedule (T n : Nat) (f : Nat → List (Loc × Int)) (hf : ∀ i, ∀ w ∈ f i, w.1.iter = i)
    (its : Nat → List Nat) (hcov : ∀ i < n, ∃ t < T, i ∈ its t) (l : List (Nat × (Loc × Int)))
    (hl : Interleaving T (fun t => (its t).flatMap f) l) (a : Loc) (ha : a.iter < n) (mem : Loc → Int) :
    seq (l.map (·.2)) mem a = seq (f a.iter) mem a := by
  rcases last_store a l mem with h | ⟨t, ⟨e, h1, h2, h3⟩, h4⟩
  · rw [seq_untouched a (l.map (·.2))]
    · rw [seq_untouched]
      intro w hw e
      obtain ⟨t, ht, hi⟩ := hcov _ ha
      have hmem : w ∈ (its t).flatMap f := List.mem_flatMap.2 ⟨_, hi, hw⟩
      have hp := hl.2 t ht
      simp only at hp
      rw [← hp] at hmem
      obtain ⟨x, hx, rfl⟩ := List.mem_map.1 hmem
      exact h x (List.mem_filter.1 hx).1 e
    · intro w hw
      obtain ⟨x, hx, rfl⟩ := List.mem_map.1 hw
      exact h x hx
  · have ht : t < T := by rw [← h2]; exact hl.1 e h1
    rw [h4, hl.2 t ht]
    apply seq_blocks f hf
    have hmem : e.2 ∈ (its t).flatMap f := by
      have hp := hl.2 t ht
      simp only at hp
      rw [← hp]
      exact List.mem_map.2 ⟨e, List.mem_filter.2 ⟨h1, by simp [h2]⟩, rfl⟩
    obtain ⟨i, hi, hw⟩ := List.mem_flatMap.1 hmem
    have := hf i _ hw
    rw [h3] at this
    rw [this]; exact hi

theorem block_iter (ys : List Generator) (states : List Nat) (wg ws : Bool) (i : Nat) :
    ∀ w ∈ block ys states wg ws i, w.1.iter = i := by
  intro w hw
  unfold block at hw
  cases hs : states[i]? with
  | none => rw [hs] at hw; simp at hw
  | some s =>
    rw [hs] at hw
    simp only [List.mem_append] at hw
    rcases hw with h | h
    · cases wg with
      | false => simp at h
      | true =>
        rw [if_pos rfl] at h
        obtain ⟨g, _, h⟩ := List.mem_flatMap.1 h
        obtain ⟨j, _, rfl⟩ := List.mem_map.1 h
        rfl
    · cases hr : refState ys s (ys.map fun _ => 0) 1 with
      | none => rw [hr] at h; simp at h
      | some b =>
        rw [hr] at h
        rcases List.mem_cons.1 h with rfl | h
        · rfl
        · cases ws with
          | false => simp at h
          | true => rw [if_pos rfl] at h; rw [List.mem_singleton.1 h]; rfl

/-! ### the log of `g` -/

theorem logInner_last (ys : List Generator) (cs done : List Nat) (x : Nat × Int) (best : Best) :
    (refInner ys cs done x best).2.2.g = (logInner ys cs done x best).getLastD best.g := by
  induction ys generalizing cs done x best with
  | nil => cases cs <;> simp [refInner, logInner]
  | cons y ys ih =>
    cases cs with
    | nil => simp [refInner, logInner]
    | cons c cs =>
      simp only [refInner, logInner]
      by_cases h1 : x.1 > best.r
      · simp only [h1, if_true]
        split
        · rw [ih]
          generalize logInner _ _ _ _ _ = l
          cases l with
          | nil => simp
          | cons a l => simp [List.getLastD_eq_getLast?, List.getLast?_append, List.getLast?_cons]
        · simp
      · simp only [h1, if_false]
        split
        · rw [ih]; simp
        · simp

theorem logOuter_last (rs : List Generator) (m fuel : Nat) (cs : List Nat) (x : Nat × Int) (best b : Best)
    (h : refOuter rs m fuel cs x best = some b) : b.g = (logOuter rs m fuel cs x best).getLastD best.g := by
  induction fuel generalizing cs x best with
  | zero => simp [refOuter] at h
  | succ fuel ih =>
    simp only [refOuter] at h
    simp only [logOuter]
    by_cases hc : cs.sum ≥ m
    · rw [if_pos hc] at h
      rw [if_pos hc, List.append_nil, ← logInner_last]
      injection h with h
      rw [h]
    · rw [if_neg hc] at h
      rw [if_neg hc, ih _ _ _ h, logInner_last]
      generalize logOuter _ _ _ _ _ _ = l
      cases l with
      | nil => simp
      | cons a l => simp [List.getLastD_eq_getLast?, List.getLast?_append, List.getLast?_cons]

theorem refLog_last (ys : List Generator) (s : Nat) (b : Best)
    (h : refState ys s (ys.map fun _ => 0) 1 = some b) : b.g = (refLog ys s).getLastD (ys.map fun _ => 0) := by
  unfold refState at h
  unfold refLog
  split at h
  · rename_i h0
    rw [if_pos h0]
    injection h with h
    rw [← h]
    simp [List.map_map]
  · rename_i h0
    rw [if_neg h0]
    exact logOuter_last _ _ _ _ _ _ _ h

/-- what the writes of `g` leave behind -/
theorem seq_log (n i : Nat) (log : List (List Nat)) (mem : Loc → Int) (j : Nat) (hj : j < n) (g0 : List Nat)
    (h0 : mem (.g i j) = (g0.getD j 0 : Int)) :
    seq (log.flatMap fun g => (List.range n).map fun j => (Loc.g i j, (g.getD j 0 : Int))) mem (.g i j)
      = ((log.getLastD g0).getD j 0 : Int) := by
  have one : ∀ (g : List Nat) (mem : Loc → Int),
      seq ((List.range n).map fun j => (Loc.g i j, (g.getD j 0 : Int))) mem (.g i j) = (g.getD j 0 : Int) := by
    intro g mem
    obtain ⟨m, rfl⟩ : ∃ m, n = j + 1 + m := ⟨n - (j + 1), by omega⟩
    rw [List.range_add, List.map_append, List.range_succ, List.map_append, seq_append, seq_append, seq_untouched]
    · simp [seq, store]
    · intro w hw
      simp only [List.map_map, List.mem_map, Function.comp] at hw
      obtain ⟨k, _, rfl⟩ := hw
      intro e
      simp at e
      omega
  induction log using List.reverseRecOn with
  | nil => simpa [seq] using h0
  | append_singleton log g ih =>
    rw [List.flatMap_append, seq_append]
    simp only [List.flatMap_cons, List.flatMap_nil, List.append_nil]
    rw [one]
    simp

/-! ### early exit -/

theorem parFor_ok {α : Type} (body : Nat → α × Bool) (order : List (Nat × Bool)) (out : Nat → α)
    (h : ∀ e ∈ order, (body e.1).2 = false) :
    (parFor body order (out, false)).2 = false ∧
    ∀ i, (parFor body order (out, false)).1 i = if i ∈ order.map (·.1) then (body i).1 else out i := by
  induction order generalizing out with
  | nil => simp [parFor]
  | cons e order ih =>
    obtain ⟨i, sees⟩ := e
    have hb : (body i).2 = false := h (i, sees) (by simp)
    simp only [parFor, Bool.false_and, Bool.false_eq_true, if_false, Bool.false_or, hb]
    obtain ⟨h1, h2⟩ := ih (fun j => if j = i then (body i).1 else out j) (fun e he => h e (by simp [he]))
    refine ⟨h1, ?_⟩
    intro j
    rw [h2]
    by_cases hj : j = i
    · subst hj; simp
    · simp [hj]

theorem parFor_err_stays {α : Type} (body : Nat → α × Bool) (order : List (Nat × Bool)) (out : Nat → α) :
    (parFor body order (out, true)).2 = true := by
  induction order generalizing out with
  | nil => rfl
  | cons e order ih =>
    obtain ⟨i, sees⟩ := e
    simp only [parFor, Bool.true_and, Bool.true_or]
    split <;> exact ih _

theorem parFor_err {α : Type} (body : Nat → α × Bool) (order : List (Nat × Bool)) (out : Nat → α)
    (h : ∃ e ∈ order, (body e.1).2 = true) : (parFor body order (out, false)).2 = true := by
  induction order generalizing out with
  | nil => obtain ⟨e, he, _⟩ := h; simp at he
  | cons e order ih =>
    obtain ⟨i, sees⟩ := e
    simp only [parFor, Bool.false_and, Bool.false_eq_true, if_false, Bool.false_or]
    cases hb : (body i).2 with
    | true => exact parFor_err_stays _ _ _
    | false =>
      apply ih
      obtain ⟨e, he, h1⟩ := h
      rcases List.mem_cons.1 he with rfl | h2
      · rw [hb] at h1; simp at h1
      · exact ⟨e, h2, h1⟩

/-! ### amplitudes -/

variable {S : Nat → Prop} {all : List Generator}

theorem ampRec_spec (h : Acts S all) (s : Nat) {ys : List Generator} (hys : ∀ y ∈ ys, y ∈ all) (r : Nat) (hr : S r)
    (sign : Int) (k : ℝ) :
    ampRec s ys r sign k = ((exponents ys).map fun cs =>
      if (word ys cs (r, sign)).1 = s then ((word ys cs (r, sign)).2 : ℂ) *
        Complex.exp (-(Complex.I * ((k + angle ys cs : ℝ) : ℂ))) else 0).sum := by
  induction ys generalizing r sign k with
  | nil => simp [ampRec, exponents, word, angle]
  | cons y ys ih =>
    have hy : y ∈ all := hys y (by simp)
    have hys' : ∀ y ∈ ys, y ∈ all := fun z hz => hys z (by simp [hz])
    have ih := fun r hr sign k => ih hys' r hr sign k
    rw [ampRec]
    have loop : ∀ (m j : Nat),
        ampLoop y (ampRec s ys) m (y.U^[j] (r, sign)).1 (y.U^[j] (r, sign)).2 (k + 2 * Real.pi * y.q / y.per * j)
        = ((List.range' j m).map fun i => ((exponents ys).map fun cs =>
          if (word ys cs (y.U^[i] (r, sign))).1 = s then ((word ys cs (y.U^[i] (r, sign))).2 : ℂ) *
            Complex.exp (-(Complex.I * ((k + 2 * Real.pi * y.q / y.per * i + angle ys cs : ℝ) : ℂ))) else 0).sum).sum := by
      intro m
      induction m with
      | zero => intro j; simp [ampLoop]
      | succ m ihm =>
        intro j
        have hx : S (y.U^[j] (r, sign)).1 := iter_closed h hy j (x := (r, sign)) hr
        have hm := ihm (j + 1)
        simp only [ampLoop]
        have hU : y.U ((y.U^[j] (r, sign)).1, (y.U^[j] (r, sign)).2) = y.U^[j + 1] (r, sign) := by
          rw [Function.iterate_succ_apply']
        have hk : k + 2 * Real.pi * y.q / y.per * (j : ℝ) + 2 * Real.pi * y.q / y.per
            = k + 2 * Real.pi * y.q / y.per * ((j + 1 : Nat) : ℝ) := by push_cast; ring
        rw [hU, hk, hm, ih _ hx, List.range'_succ, List.map_cons, List.sum_cons]
    have h0 := loop y.per 0
    simp only [Function.iterate_zero, id, Nat.cast_zero, mul_zero, add_zero] at h0
    rw [h0, exponents_sum_cons, ← List.range_eq_range']
    congr 1
    apply List.map_congr_left
    intro j hj
    congr 1
    apply List.map_congr_left
    intro cs _
    have e1 : word (y :: ys) (j :: cs) (r, sign) = word ys cs (y.U^[j] (r, sign)) := by
      rw [word, word_comm h hys' hy cs j (x := (r, sign)) hr]
    rw [e1]
    have e2 : angle (y :: ys) (j :: cs) = 2 * Real.pi * y.q / y.per * j + angle ys cs := rfl
    rw [e2, add_assoc]

theorem getAmpRep_eq (h : Acts S all) (r s : Nat) (hr : S r) (hrs : Related all r s) :
    getAmpRep all r s = projection all r s := by
  unfold getAmpRep
  by_cases h0 : all.length = 0
  · rw [if_pos h0]
    have h0' : all = [] := List.length_eq_zero_iff.1 h0
    subst h0'
    obtain ⟨cs, hc, e⟩ := (related_iff h r s hr).1 hrs
    cases hc
    simp [word] at e
    simp [projection, exponents, word, character, angle, e]
  · rw [if_neg h0, ampRec_spec h s (fun _ h => h) r hr]
    unfold projection
    congr 1
    apply List.map_congr_left
    intro cs _
    split
    · rw [mul_comm]
      congr 1
      unfold character
      rw [← Complex.exp_conj]
      congr 1
      simp
    · rfl

end Proof.Amp
