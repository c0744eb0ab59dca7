import Verif.Model.Blocks
import Mathlib.Tactic.Ring
import Mathlib.Algebra.BigOperators.Group.Finset.Basic
import Mathlib.Algebra.Order.BigOperators.Group.Finset
import Mathlib.Data.List.GetD

namespace Proof.Blocks
open Model.Blocks

variable {X A : Type} {sys : System X}

/-! ### Invariant of the protocol -/

/-- How many values the parent has taken from worker `v`. -/
def gets (s : State X) (v : Nat) : Nat :=
  s.i + if s.phase ≠ .join ∧ (v < s.w ∨ (v = s.w ∧ s.phase = .set)) then 1 else 0

/-- How many times the parent has released worker `v`. -/
def sets (s : State X) (v : Nat) : Nat := s.i + if s.phase ≠ .join ∧ v < s.w then 1 else 0

/-- What holds of a worker from which `g` values were taken and which was released `r` times. -/
def WInv (items : List (List X)) (g r : Nat) (W : Worker X) : Prop :=
  match W.pc with
  | .next => W.k = g ∧ W.k = r ∧ W.queue = none ∧ W.k ≤ items.length
  | .clear => W.k = g ∧ W.k = r ∧ W.queue = none ∧ W.k < items.length
  | .put => W.k = g ∧ W.k = r ∧ W.queue = none ∧ W.k < items.length ∧ W.event = false
  | .wait => W.k < items.length ∧
      ((W.queue = items[W.k]? ∧ g = W.k ∧ r = W.k ∧ W.event = false) ∨
        (W.queue = none ∧ g = W.k + 1 ∧ r = W.k ∧ W.event = false) ∨
        (W.queue = none ∧ g = W.k + 1 ∧ r = W.k + 1 ∧ W.event = true))
  | _ => W.k = g ∧ W.k = r ∧ W.queue = none ∧ W.k = items.length

/-- What holds of the parent. -/
def PInv (sys : System X) (s : State X) : Prop :=
  match s.phase with
  | .get => s.i ≤ sys.rounds ∧ s.w ≤ sys.n ∧ (s.i = sys.rounds → s.w = 0)
  | .set => s.i < sys.rounds ∧ s.w < sys.n
  | .join => s.i = sys.rounds ∧ s.w ≤ sys.n

/-- Number of workers whose value is in `acc`. -/
def taken (s : State X) : Nat := s.w + if s.phase = .set then 1 else 0

/-- The value of worker `v` in round `r`. -/
def value (sys : System X) (r v : Nat) : List X := ((sys.items v)[r]?).getD []

structure Inv (sys : System X) (s : State X) : Prop where
  parent : PInv sys s
  workers : ∀ v < sys.n, WInv (sys.items v) (gets s v) (sets s v) (s.workers v)
  acc : s.phase ≠ .join → s.acc = (List.range (taken s)).flatMap fun v => value sys s.i v
  out : s.out = (List.range s.i).map fun r => (List.range sys.n).flatMap fun v => value sys r v

theorem inv_start : Inv sys (start X) := by
  refine ⟨⟨Nat.zero_le _, Nat.zero_le _, fun _ => rfl⟩, fun v _ => ?_, fun _ => rfl, rfl⟩
  show (0 = gets (start X) v ∧ 0 = sets (start X) v ∧ (none : Option (List X)) = none ∧ 0 ≤ (sys.items v).length)
  simp [gets, sets, start]

theorem inv_worker {s : State X} (h : Inv sys s) (w : Nat) (W : Worker X)
    (hW : WInv (sys.items w) (gets s w) (sets s w) (s.workers w) → WInv (sys.items w) (gets s w) (sets s w) W) :
    Inv sys (s.setWorker w W) := by
  refine ⟨h.parent, fun v hv => ?_, h.acc, h.out⟩
  by_cases e : v = w
  · subst e
    show WInv _ (gets s v) (sets s v) (Function.update s.workers v W v)
    rw [Function.update_self]
    exact hW (h.workers v hv)
  · show WInv _ (gets s v) (sets s v) (Function.update s.workers w W v)
    rw [Function.update_of_ne e]
    exact h.workers v hv

theorem inv_step {s t : State X} (h : Inv sys s) (st : Step sys s t) : Inv sys t := by
  cases st with
  | next w hw hp hk =>
    refine inv_worker h w _ fun hI => ?_
    simp only [WInv, hp] at hI
    exact ⟨hI.1, hI.2.1, hI.2.2.1, hk⟩
  | finish w hw hp hk =>
    refine inv_worker h w _ fun hI => ?_
    simp only [WInv, hp] at hI
    cases hc : sys.crash w <;> exact ⟨hI.1, hI.2.1, hI.2.2.1, hk⟩
  | clear w hw hp =>
    refine inv_worker h w _ fun hI => ?_
    simp only [WInv, hp] at hI
    exact ⟨hI.1, hI.2.1, hI.2.2.1, hI.2.2.2, rfl⟩
  | put w hw x hp hq hx =>
    refine inv_worker h w _ fun hI => ?_
    simp only [WInv, hp] at hI
    exact ⟨hI.2.2.2.1, Or.inl ⟨hx.symm, hI.1.symm, hI.2.1.symm, hI.2.2.2.2⟩⟩
  | wait w hw hp he =>
    refine inv_worker h w _ fun hI => ?_
    simp only [WInv, hp] at hI
    obtain ⟨hk, h1 | h1 | h1⟩ := hI
    · rw [he] at h1; simp at h1
    · rw [he] at h1; simp at h1
    · exact ⟨h1.2.1.symm, h1.2.2.1.symm, h1.1, hk⟩
  | get x hp hi hw hq =>
    have hP := h.parent
    simp only [PInv, hp] at hP
    have hwI := h.workers s.w hw
    have hg : gets s s.w = s.i := by simp [gets, hp]
    have hr : sets s s.w = s.i := by simp [sets, hp]
    rw [hg, hr] at hwI
    have hx : (s.workers s.w).pc = .wait ∧ (s.workers s.w).k = s.i ∧ (sys.items s.w)[s.i]? = some x ∧ (s.workers s.w).event = false ∧
        s.i < (sys.items s.w).length := by
      unfold WInv at hwI
      split at hwI
      · rw [hwI.2.2.1] at hq; simp at hq
      · rw [hwI.2.2.1] at hq; simp at hq
      · rw [hwI.2.2.1] at hq; simp at hq
      · rename_i hpc
        obtain ⟨hk, h1 | h1 | h1⟩ := hwI
        · have hki : (s.workers s.w).k = s.i := h1.2.1.symm
          exact ⟨hpc, hki, by rw [← hki, ← h1.1, hq], h1.2.2.2, by omega⟩
        · rw [h1.1] at hq; simp at hq
        · rw [h1.1] at hq; simp at hq
      · rw [hwI.2.2.1] at hq; simp at hq
    refine ⟨⟨hi, hw⟩, fun v hv => ?_, fun _ => ?_, h.out⟩
    · by_cases e : v = s.w
      · subst e
        simp only [State.setWorker, Function.update_self, gets, sets]
        simp only [WInv, hx.1]
        refine ⟨by rw [hx.2.1]; exact hx.2.2.2.2, Or.inr (Or.inl ⟨trivial, ?_, ?_, hx.2.2.2.1⟩)⟩
        · simp [hx.2.1]
        · simp [hx.2.1]
      · simp only [State.setWorker, Function.update_of_ne e]
        have h0 := h.workers v hv
        simp only [gets, sets, hp] at h0 ⊢
        simpa [e] using h0
    · have h0 := h.acc (by rw [hp]; simp)
      simp only [taken, hp] at h0
      show s.acc ++ x = _
      simp only [taken, State.setWorker]
      rw [h0]
      simp only [reduceCtorEq, if_false, Nat.add_zero, if_true]
      rw [List.range_succ, List.flatMap_append]
      congr 1
      simp [value, hx.2.2.1]
  | set hp =>
    have hP := h.parent
    simp only [PInv, hp] at hP
    refine ⟨⟨by simpa [State.setWorker] using hP.1.le, hP.2, fun e => absurd e (by have := hP.1; simp [State.setWorker] at e; omega)⟩,
      fun v hv => ?_, fun _ => ?_, h.out⟩
    · by_cases e : v = s.w
      · subst e
        simp only [State.setWorker, Function.update_self, gets, sets]
        have h0 := h.workers s.w hv
        have hg : gets s s.w = s.i + 1 := by simp [gets, hp]
        have hr : sets s s.w = s.i := by simp [sets, hp]
        rw [hg, hr] at h0
        simp only [ne_eq, reduceCtorEq, not_false_eq_true, true_and, Nat.lt_succ_self, true_or, if_true]
        unfold WInv at h0
        split at h0
        · omega
        · omega
        · omega
        · rename_i hpc
          simp only [WInv, hpc]
          obtain ⟨hk, h1 | h1 | h1⟩ := h0
          · omega
          · exact ⟨hk, Or.inr (Or.inr ⟨h1.1, h1.2.1, by omega, trivial⟩)⟩
          · omega
        · omega
      · simp only [State.setWorker, Function.update_of_ne e]
        have h0 := h.workers v hv
        simp only [gets, sets, hp] at h0 ⊢
        have e1 : (v < s.w + 1) ↔ v < s.w := by omega
        simpa [e, e1] using h0
    · have h0 := h.acc (by rw [hp]; simp)
      simp only [taken, hp] at h0
      simp only [taken, State.setWorker]
      rw [h0]
      simp
  | yield hp hi hw =>
    have hP := h.parent
    simp only [PInv, hp] at hP
    refine ⟨by simp only [PInv, hp]; exact ⟨hi, Nat.zero_le _, fun _ => trivial⟩, fun v hv => ?_, fun _ => by simp [taken, hp], ?_⟩
    · have h0 := h.workers v hv
      simp only [gets, sets, hp] at h0 ⊢
      have e1 : v < s.w := by omega
      simpa [e1] using h0
    · have h0 := h.acc (by rw [hp]; simp)
      show s.out ++ [s.acc] = _
      rw [h.out, h0]
      simp only [taken, hp]
      rw [List.range_succ, List.map_append]
      simp [hw]
  | close hp hi =>
    have hP := h.parent
    simp only [PInv, hp] at hP
    refine ⟨⟨hi, Nat.zero_le _⟩, fun v hv => ?_, fun h0 => absurd rfl h0, h.out⟩
    have h0 := h.workers v hv
    have hw0 := hP.2.2 hi
    simp only [gets, sets, hp] at h0 ⊢
    simpa [hw0] using h0
  | join hp hw hd =>
    have hP := h.parent
    simp only [PInv, hp] at hP
    refine ⟨by simp only [PInv, hp]; exact ⟨hP.1, hw⟩, fun v hv => ?_, fun h0 => absurd hp h0, h.out⟩
    have h0 := h.workers v hv
    simp only [gets, sets, hp] at h0 ⊢
    simpa using h0

theorem inv_run {s t : State X} (r : Run sys s t) (h : Inv sys s) : Inv sys t := by
  induction r with
  | refl => exact h
  | step _ st ih => exact inv_step ih st

/-! ### Termination -/

/-- Steps left for a worker. -/
def workLeft (items : List (List X)) (W : Worker X) : Nat :=
  match W.pc with
  | .next => 4 * (items.length - W.k) + 1
  | .clear => 4 * (items.length - W.k)
  | .put => 4 * (items.length - W.k) - 1
  | .wait => 4 * (items.length - W.k) - 2
  | _ => 0

/-- Steps left for the parent. -/
def parentLeft (sys : System X) (s : State X) : Nat :=
  match s.phase with
  | .get => (sys.rounds - s.i) * (2 * sys.n + 1) - 2 * s.w + (sys.n + 1)
  | .set => (sys.rounds - s.i) * (2 * sys.n + 1) - (2 * s.w + 1) + (sys.n + 1)
  | .join => sys.n - s.w

/-- Steps left. -/
def left (sys : System X) (s : State X) : Nat :=
  parentLeft sys s + ∑ v ∈ Finset.range sys.n, workLeft (sys.items v) (s.workers v)

theorem left_worker {s : State X} {w : Nat} (hw : w < sys.n) {W : Worker X}
    (h : workLeft (sys.items w) W < workLeft (sys.items w) (s.workers w)) : left sys (s.setWorker w W) < left sys s := by
  unfold left
  refine Nat.add_lt_add_left ?_ (parentLeft sys s)
  refine Finset.sum_lt_sum (fun v _ => ?_) ⟨w, Finset.mem_range.mpr hw, ?_⟩
  · by_cases e : v = w
    · subst e; simp only [State.setWorker, Function.update_self]; exact h.le
    · simp only [State.setWorker, Function.update_of_ne e]; exact le_refl _
  · simp only [State.setWorker, Function.update_self]; exact h

/-- A worker with the same `pc` and `k` has the same number of steps left. -/
theorem left_same (s : State X) (w : Nat) (W : Worker X) (h1 : W.pc = (s.workers w).pc) (h2 : W.k = (s.workers w).k) (v : Nat) :
    workLeft (sys.items v) ((s.setWorker w W).workers v) = workLeft (sys.items v) (s.workers v) := by
  by_cases e : v = w
  · subst e; simp only [State.setWorker, Function.update_self, workLeft, h1, h2]
  · simp only [State.setWorker, Function.update_of_ne e]

theorem left_parent {s : State X} {t : State X} (hw : ∀ v, workLeft (sys.items v) (t.workers v) = workLeft (sys.items v) (s.workers v))
    (h : parentLeft sys t < parentLeft sys s) : left sys t < left sys s := by
  unfold left
  simp only [hw]
  exact Nat.add_lt_add_right h _

theorem left_step {s t : State X} (h : Inv sys s) (st : Step sys s t) : left sys t < left sys s := by
  cases st with
  | next w hw hp hk =>
    refine left_worker hw ?_
    simp only [workLeft, hp]
    omega
  | finish w hw hp hk =>
    refine left_worker hw ?_
    simp only [workLeft, hp]
    cases sys.crash w <;> simp
  | clear w hw hp =>
    refine left_worker hw ?_
    have hI := h.workers w hw
    simp only [WInv, hp] at hI
    simp only [workLeft, hp]
    omega
  | put w hw x hp hq hx =>
    refine left_worker hw ?_
    have hI := h.workers w hw
    simp only [WInv, hp] at hI
    simp only [workLeft, hp]
    omega
  | wait w hw hp he =>
    refine left_worker hw ?_
    have hI := h.workers w hw
    simp only [WInv, hp] at hI
    simp only [workLeft, hp]
    omega
  | get x hp hi hw hq =>
    refine left_parent (fun v => left_same s s.w { s.workers s.w with queue := none } rfl rfl v) ?_
    simp only [parentLeft, hp, State.setWorker]
    obtain ⟨d, hd⟩ : ∃ d, sys.rounds - s.i = d + 1 := ⟨sys.rounds - s.i - 1, by omega⟩
    rw [hd, Nat.add_mul, Nat.one_mul]
    omega
  | set hp =>
    have hP := h.parent
    simp only [PInv, hp] at hP
    refine left_parent (fun v => left_same s s.w { s.workers s.w with event := true } rfl rfl v) ?_
    simp only [parentLeft, hp, State.setWorker]
    obtain ⟨d, hd⟩ : ∃ d, sys.rounds - s.i = d + 1 := ⟨sys.rounds - s.i - 1, by omega⟩
    rw [hd, Nat.add_mul, Nat.one_mul]
    omega
  | yield hp hi hw =>
    refine left_parent (fun v => rfl) ?_
    simp only [parentLeft, hp]
    obtain ⟨d, hd⟩ : ∃ d, sys.rounds - s.i = d + 1 := ⟨sys.rounds - s.i - 1, by omega⟩
    rw [show sys.rounds - (s.i + 1) = d by omega, hd, Nat.add_mul, Nat.one_mul]
    omega
  | close hp hi =>
    refine left_parent (fun v => rfl) ?_
    simp only [parentLeft, hp]
    omega
  | join hp hw hd =>
    refine left_parent (fun v => rfl) ?_
    simp only [parentLeft, hp]
    omega

/-! ### Deadlocks -/

theorem progress {s : State X} (h : Inv sys s) (hl : ∀ v < sys.n, (sys.items v).length = sys.rounds) (hf : ¬Finished sys s) :
    ∃ t, Step sys s t := by
  have hP := h.parent
  cases hp : s.phase with
  | get =>
    simp only [PInv, hp] at hP
    by_cases hi : s.i = sys.rounds
    · exact ⟨_, .close s hp hi⟩
    by_cases hw : s.w = sys.n
    · exact ⟨_, .yield s hp (by omega) hw⟩
    have hw' : s.w < sys.n := by omega
    have hI := h.workers s.w hw'
    have hg : gets s s.w = s.i := by simp [gets, hp]
    have hr : sets s s.w = s.i := by simp [sets, hp]
    rw [hg, hr] at hI
    have hlen := hl s.w hw'
    unfold WInv at hI
    split at hI
    · rename_i hpc; exact ⟨_, .next s s.w hw' hpc (by omega)⟩
    · rename_i hpc; exact ⟨_, .clear s s.w hw' hpc⟩
    · rename_i hpc
      exact ⟨_, .put s s.w hw' _ hpc hI.2.2.1 (List.getElem?_eq_getElem hI.2.2.2.1)⟩
    · rename_i hpc
      obtain ⟨hk, h1 | h1 | h1⟩ := hI
      · exact ⟨_, .get s _ hp (by omega) hw' (by rw [h1.1]; exact List.getElem?_eq_getElem hk)⟩
      · omega
      · exact ⟨_, .wait s s.w hw' hpc h1.2.2.2⟩
    · omega
  | set => exact ⟨_, .set s hp⟩
  | join =>
    simp only [PInv, hp] at hP
    have hw' : s.w < sys.n := by
      have : s.w ≠ sys.n := fun e => hf ⟨hp, e⟩
      omega
    have hI := h.workers s.w hw'
    have hg : gets s s.w = s.i := by simp [gets, hp]
    have hr : sets s s.w = s.i := by simp [sets, hp]
    rw [hg, hr] at hI
    have hlen := hl s.w hw'
    unfold WInv at hI
    split at hI
    · rename_i hpc; exact ⟨_, .finish s s.w hw' hpc (by omega)⟩
    · omega
    · omega
    · rename_i hpc
      obtain ⟨hk, h1 | h1 | h1⟩ := hI
      · omega
      · omega
      · exact ⟨_, .wait s s.w hw' hpc h1.2.2.2⟩
    · rename_i hn1 hn2 hn3 hn4
      refine ⟨_, .join s hp hw' ?_⟩
      cases hpc : (s.workers s.w).pc with
      | next => exact absurd hpc hn1
      | clear => exact absurd hpc hn2
      | put => exact absurd hpc hn3
      | wait => exact absurd hpc hn4
      | done => exact Or.inl rfl
      | dead => exact Or.inr rfl

/-- When the parent returns every worker has handed over all its values. -/
theorem join_done {s : State X} (r : Run sys (start X) s) :
    s.phase = .join → ∀ v < s.w, (s.workers v).pc = .done ∨ (s.workers v).pc = .dead := by
  induction r with
  | refl => intro h; exact absurd h (by simp [start])
  | step r st ih =>
    rename_i t u
    intro hph v hv
    have key : ∀ w (W : Worker X), (t.setWorker w W).phase = .join → v < (t.setWorker w W).w → (t.workers w).pc ≠ .done →
        (t.workers w).pc ≠ .dead → ((t.setWorker w W).workers v).pc = .done ∨ ((t.setWorker w W).workers v).pc = .dead := by
      intro w W h1 h2 h3 h4
      have := ih h1 v h2
      by_cases e : v = w
      · subst e
        rcases this with h | h
        · exact absurd h h3
        · exact absurd h h4
      · simp only [State.setWorker, Function.update_of_ne e]
        exact this
    cases st with
    | next w hw hp hk => exact key w _ hph hv (by rw [hp]; simp) (by rw [hp]; simp)
    | finish w hw hp hk => exact key w _ hph hv (by rw [hp]; simp) (by rw [hp]; simp)
    | clear w hw hp => exact key w _ hph hv (by rw [hp]; simp) (by rw [hp]; simp)
    | put w hw x hp hq hx => exact key w _ hph hv (by rw [hp]; simp) (by rw [hp]; simp)
    | wait w hw hp he => exact key w _ hph hv (by rw [hp]; simp) (by rw [hp]; simp)
    | get x hp hi hw hq => simp at hph
    | set hp => simp at hph
    | yield hp hi hw => rw [hp] at hph; simp at hph
    | close hp hi => simp at hv
    | join hp hw hd =>
      rcases Nat.lt_succ_iff_lt_or_eq.mp hv with h1 | h1
      · exact ih hp v h1
      · rw [h1]; exact hd

theorem finished_lengths {s : State X} (r : Run sys (start X) s) (hf : Finished sys s) (v : Nat) (hv : v < sys.n) :
    (sys.items v).length = sys.rounds := by
  have hI := inv_run r inv_start
  have hP := hI.parent
  simp only [PInv, hf.1] at hP
  have hd := join_done r hf.1 v (by rw [hf.2]; exact hv)
  have hw := hI.workers v hv
  have hg : gets s v = s.i := by simp [gets, hf.1]
  rw [hg] at hw
  rcases hd with hd | hd <;> simp only [WInv, hd] at hw <;> omega

/-! ### Distribution -/

theorem slice_chain (l : List A) (a b c : Nat) (h1 : a ≤ b) (h2 : b ≤ c) : slice l a b ++ slice l b c = slice l a c := by
  unfold slice
  have : (l.take c).drop a = ((l.take b).drop a) ++ ((l.take c).drop b) := by
    have e : l.take b = (l.take c).take b := by rw [List.take_take, Nat.min_eq_left h2]
    rw [e]
    generalize l.take c = m
    rw [List.drop_take]
    conv_lhs => rw [← List.take_append_drop (b - a) (m.drop a)]
    rw [List.drop_drop, Nat.add_sub_cancel' h1]
  exact this.symm

theorem subLists_flatten (l : List A) (n pp left : Nat) (hn : left + (n - 1) * pp = l.length) :
    (subLists l n pp left).flatten = l := by
  have aux : ∀ m, slice l 0 left ++ ((List.range m).map fun i => slice l (left + i * pp) (left + (i + 1) * pp)).flatten =
      slice l 0 (left + m * pp) := by
    intro m
    induction m with
    | zero => simp
    | succ m ih =>
      rw [List.range_succ, List.map_append, List.flatten_append, ← List.append_assoc, ih]
      simp only [List.map_cons, List.map_nil, List.flatten_cons, List.flatten_nil, List.append_nil]
      exact slice_chain l 0 _ _ (Nat.zero_le _) (by rw [Nat.add_mul]; omega)
  rw [subLists, List.flatten_cons, aux, hn]
  simp [slice]

theorem split_total {nItems nProcess : Nat} {r : Nat × Nat × Nat} (h : split nItems nProcess = some r) :
    2 ≤ r.1 ∧ r.2.2 + (r.1 - 1) * r.2.1 = nItems ∧ 1 ≤ r.2.1 ∧ 1 ≤ r.2.2 := by
  unfold split at h
  simp only at h
  by_cases hi : nItems ≤ nProcess
  · rw [if_pos hi] at h
    split at h
    · simp at h
    · rename_i hc
      obtain rfl := Option.some.inj h
      simp only at hc ⊢
      omega
  · rw [if_neg hi] at h
    split at h
    · simp at h
    · rename_i hc
      obtain rfl := Option.some.inj h
      simp only at hc ⊢
      have hp : 0 < nProcess := by omega
      have h1 : 1 ≤ nItems / nProcess := Nat.div_pos (by omega) hp
      refine ⟨by omega, ?_, h1, by omega⟩
      have := Nat.div_add_mod nItems nProcess
      obtain ⟨q, hq⟩ : ∃ q, nProcess = q + 1 := ⟨nProcess - 1, by omega⟩
      rw [hq] at this ⊢
      rw [Nat.add_mul, Nat.one_mul] at this
      simp only [Nat.add_sub_cancel]
      omega

theorem foldl_min (l : List Nat) (m : Nat) (h : ∀ x ∈ l, x = m) : l.foldl min m = m := by
  induction l with
  | nil => rfl
  | cons a l ih => rw [List.foldl_cons, h a (by simp), Nat.min_self]; exact ih fun x hx => h x (by simp [hx])

theorem zipAll_length (l : List (List X)) (m : Nat) (hl : l ≠ []) (h : ∀ g ∈ l, g.length = m) : (zipAll l).length = m := by
  cases l with
  | nil => exact absurd rfl hl
  | cons g l =>
    rw [zipAll, List.length_map, List.length_range, h g (by simp)]
    refine foldl_min _ m fun x hx => ?_
    obtain ⟨y, hy, rfl⟩ := List.mem_map.mp hx
    exact h y (by simp [hy])

theorem zipAll_get (l : List (List X)) (m i : Nat) (hl : l ≠ []) (h : ∀ g ∈ l, g.length = m) (hi : i < m) :
    (zipAll l)[i]? = some (l.filterMap fun g => g[i]?) := by
  have hlen := zipAll_length l m hl h
  cases l with
  | nil => exact absurd rfl hl
  | cons g l =>
    rw [List.getElem?_eq_getElem (by omega)]
    simp [zipAll]

end Proof.Blocks
