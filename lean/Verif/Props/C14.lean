import Verif.Proof.HcbBasis
/-!
C14  Basis construction does not depend on the number of threads.
C15  Basis construction never overruns the requested block size and reports shortage consistently.

`Model.makeBasis w sort check nt MAX mem T writes` builds the basis of the states `0..MAX-1`, and
`Model.makeBasisPcon` the basis of the states reached by `MAX-1` steps of a successor function, with
`T` threads, arrays of `mem` entries, and the threads' writes into the shared array reaching it in
the order `writes` (any interleaving of the writes the threads make).  `check` is the function
that decides whether a state is kept and with which norm; it is arbitrary.
`Spec.kept check states` lists the kept states with their norms.
-/
namespace Props
open Model Spec Proof.MakeBasis Proof.HcbBasis Proof.Gosper

/-- every interleaving of the threads' writes (unrestricted bases) -/
def Interleaving (w : Nat) (check : Check) (MAX T : Nat) (writes : List (Nat × (Nat × Int))) : Prop :=
  writes.Perm (masterWrites 0 ((List.range T).map (threadBlock w check MAX T)))

/-- every interleaving of the threads' writes (fixed particle number) -/
def InterleavingPcon (next : Nat → Nat → Nat) (check : Check) (MAX s T : Nat)
    (writes : List (Nat × (Nat × Int))) : Prop :=
  writes.Perm (masterWrites 0 ((List.range T).map (threadBlockPcon next check MAX T s)))

/-- Whatever the number of threads and the schedule, a construction that succeeds returns exactly
the kept states, in decreasing order, with their norms. -/
theorem C14_unrestricted (w : Nat) (sort : List (Nat × Int) → List (Nat × Int))
    (hs : SortsDescending sort) (check : Check) (nt MAX mem T : Nat) (hM : MAX ≤ 2 ^ w)
    (writes : List (Nat × (Nat × Int))) (hw : Interleaving w check MAX T writes)
    (l : List (Nat × Int)) (h : makeBasis w sort check nt MAX mem T writes = .ok l) :
    l = (kept check (List.range MAX)).reverse := by
  unfold makeBasis at h
  split at h
  · rw [makeBasisParallel_eq w sort hs check MAX mem T (by omega) hM writes hw] at h
    split at h
    · simp at h
    · injection h with h; exact h.symm
  · rw [makeBasisSequential_eq w check MAX mem hM] at h
    split at h
    · simp at h
    · injection h with h; exact h.symm

/-- Two successful constructions agree, whatever the thread counts, schedules, memory sizes and
sort routines. -/
theorem C14_thread_independent (w : Nat) (sort sort' : List (Nat × Int) → List (Nat × Int))
    (hs : SortsDescending sort) (hs' : SortsDescending sort') (check : Check)
    (nt MAX mem mem' T T' : Nat) (hM : MAX ≤ 2 ^ w)
    (writes writes' : List (Nat × (Nat × Int))) (hw : Interleaving w check MAX T writes)
    (hw' : Interleaving w check MAX T' writes') (l l' : List (Nat × Int))
    (h : makeBasis w sort check nt MAX mem T writes = .ok l)
    (h' : makeBasis w sort' check nt MAX mem' T' writes' = .ok l') : l = l' := by
  rw [C14_unrestricted w sort hs check nt MAX mem T hM writes hw l h,
    C14_unrestricted w sort' hs' check nt MAX mem' T' hM writes' hw' l' h']

/-- The same for enumerations driven by any strictly increasing successor function (fixed
particle number). -/
theorem C14_fixed_number (next : Nat → Nat → Nat) (sort : List (Nat × Int) → List (Nat × Int))
    (hs : SortsDescending sort) (check : Check) (nt MAX mem s T : Nat)
    (states : List Nat) (hst : visit next MAX s 0 = states) (hinc : states.Pairwise (· < ·))
    (writes : List (Nat × (Nat × Int))) (hw : InterleavingPcon next check MAX s T writes)
    (l : List (Nat × Int)) (h : makeBasisPcon next sort check nt MAX mem s T writes = .ok l) :
    l = (kept check states).reverse := by
  subst hst
  unfold makeBasisPcon at h
  split at h
  · rw [makeBasisPconParallel_eq next sort hs check MAX mem s T (by omega) hinc writes hw] at h
    split at h
    · simp at h
    · injection h with h; exact h.symm
  · rw [makeBasisPconSequential_eq] at h
    split at h
    · simp at h
    · injection h with h; exact h.symm

/-- … in particular for `k` particles on `N` two-level sites: for every thread count and schedule,
the basis is the list of kept configurations with `k` particles, decreasing. -/
theorem C14_two_level_fixed_number (w N k : Nat) (hN : N ≤ w)
    (sort : List (Nat × Int) → List (Nat × Int)) (hs : SortsDescending sort) (check : Check)
    (nt mem T : Nat) (writes : List (Nat × (Nat × Int)))
    (hw : InterleavingPcon (fun s _ => nextStatePcon w s) check (N.choose k) (s0Pcon k) T writes)
    (l : List (Nat × Int))
    (h : makeBasisPcon (fun s _ => nextStatePcon w s) sort check nt (N.choose k) mem (s0Pcon k) T writes
      = .ok l) :
    l = (kept check (sector N k)).reverse :=
  C14_fixed_number _ sort hs check nt _ mem _ T _ (visit_sector w N k hN) (sector_increasing N k)
    writes hw l h

/-- a check used in the examples below: keep even states, norm 2 -/
def checkEven : Check := fun s => if s % 2 = 0 then some 2 else none

example : ∃ l, Interleaving 32 checkEven 6 3 l ∧
    makeBasis 32 sortDesc checkEven 1 6 10 3 l = .ok [(4, 2), (2, 2), (0, 2)] :=
  ⟨_, List.Perm.refl _, by decide +kernel⟩
example : ∃ l, Interleaving 32 checkEven 6 3 l ∧ l ≠ masterWrites 0 ((List.range 3).map (threadBlock 32 checkEven 6 3)) ∧
    makeBasis 32 sortDesc checkEven 1 6 10 3 l = .ok [(4, 2), (2, 2), (0, 2)] :=
  ⟨_, (List.reverse_perm _), by decide +kernel, by decide +kernel⟩
example : makeBasis 32 sortDesc checkEven 1 6 10 1 [] = .ok [(4, 2), (2, 2), (0, 2)] := by
  decide +kernel

/-! ### C15 -/

/-- Nothing is ever written outside the arrays, and no more than `mem` states are returned. -/
theorem C15_never_overruns (w : Nat) (sort : List (Nat × Int) → List (Nat × Int))
    (hs : SortsDescending sort) (check : Check) (nt MAX mem T : Nat) (hM : MAX ≤ 2 ^ w)
    (writes : List (Nat × (Nat × Int))) (hw : Interleaving w check MAX T writes) :
    makeBasis w sort check nt MAX mem T writes ≠ .overrun ∧
    ∀ l, makeBasis w sort check nt MAX mem T writes = .ok l → l.length ≤ mem := by
  unfold makeBasis
  split
  · rw [makeBasisParallel_eq w sort hs check MAX mem T (by omega) hM writes hw]
    split
    · exact ⟨by simp, by simp⟩
    · refine ⟨by simp, ?_⟩
      intro l h; injection h with h; subst h; rw [List.length_reverse]; omega
  · rw [makeBasisSequential_eq w check MAX mem hM]
    split
    · exact ⟨by simp, by simp⟩
    · rename_i hc
      refine ⟨by simp, ?_⟩
      intro l h; injection h with h; subst h; rw [List.length_reverse]
      cases MAX with
      | zero => simp [kept]
      | succ n =>
        have h1 : (kept check (List.range (n + 1)).dropLast).length < mem := by omega
        have e : List.range (n + 1) = (List.range n) ++ [n] := List.range_succ
        rw [e, List.dropLast_concat] at h1
        rw [e, kept_append, List.length_append]
        have : (kept check [n]).length ≤ 1 := by
          rw [kept_cons, kept_nil, List.append_nil]
          cases keep check n <;> simp
        omega

/-- Single-threaded construction reports a shortage exactly when the block is full before the last
candidate state is examined. -/
theorem C15_sequential_shortage_iff (w : Nat) (sort : List (Nat × Int) → List (Nat × Int))
    (check : Check) (nt MAX mem : Nat) (hM : MAX ≤ 2 ^ w) :
    makeBasis w sort check nt MAX mem 1 [] = .insufficient
      ↔ 0 < MAX ∧ mem ≤ (kept check (List.range (MAX - 1))).length := by
  unfold makeBasis
  rw [if_neg (by omega), makeBasisSequential_eq w check MAX mem hM]
  have : (List.range MAX).dropLast = List.range (MAX - 1) := by
    cases MAX with
    | zero => rfl
    | succ n => rw [List.range_succ, List.dropLast_concat]; rfl
  rw [this]
  split <;> simp_all

/-- Multi-threaded construction reports a shortage exactly when the block has more states than the
requested size: the documented meaning. -/
theorem C15_parallel_shortage_iff (w : Nat) (sort : List (Nat × Int) → List (Nat × Int))
    (hs : SortsDescending sort) (check : Check) (nt MAX mem T : Nat) (hM : MAX ≤ 2 ^ w)
    (hT : 1 < T) (hMT : T < MAX) (hnt : 0 < nt)
    (writes : List (Nat × (Nat × Int))) (hw : Interleaving w check MAX T writes) :
    makeBasis w sort check nt MAX mem T writes = .insufficient
      ↔ mem < (kept check (List.range MAX)).length := by
  unfold makeBasis
  rw [if_pos ⟨hT, hMT, hnt⟩, makeBasisParallel_eq w sort hs check MAX mem T (by omega) hM writes hw]
  split <;> simp_all

/-- Full C15 would say: for every thread count, a shortage is reported iff the block has more than
`mem` states.  Proved here when the requested size differs from the actual size of the block.
Missing: a block that fits exactly, where the code violates it (next theorem). -/
theorem C15_shortage_consistent_partial (w : Nat) (sort : List (Nat × Int) → List (Nat × Int))
    (hs : SortsDescending sort) (check : Check) (nt MAX mem T : Nat) (hM : MAX ≤ 2 ^ w)
    (hne : (kept check (List.range MAX)).length ≠ mem)
    (writes : List (Nat × (Nat × Int))) (hw : Interleaving w check MAX T writes) :
    makeBasis w sort check nt MAX mem T writes = .insufficient
      ↔ mem < (kept check (List.range MAX)).length := by
  unfold makeBasis
  split
  · rw [makeBasisParallel_eq w sort hs check MAX mem T (by omega) hM writes hw]
    split <;> simp_all
  · rw [makeBasisSequential_eq w check MAX mem hM]
    have hlast : 0 < MAX → (kept check (List.range MAX)).length ≤ (kept check (List.range MAX).dropLast).length + 1
        ∧ (kept check (List.range MAX).dropLast).length ≤ (kept check (List.range MAX)).length := by
      intro h0
      obtain ⟨n, rfl⟩ : ∃ n, MAX = n + 1 := ⟨MAX - 1, by omega⟩
      rw [List.range_succ, List.dropLast_concat, kept_append, List.length_append]
      have : (kept check [n]).length ≤ 1 := by
        rw [kept_cons, kept_nil, List.append_nil]
        cases keep check n <;> simp
      omega
    have h00 : MAX = 0 → (kept check (List.range MAX)).length = 0 := by
      intro h; subst h; rfl
    split
    · rename_i h; have := hlast h.1; simp; omega
    · rename_i h
      simp only [reduceCtorEq, false_iff]
      intro h2
      rcases Nat.eq_zero_or_pos MAX with h0 | h0
      · have := h00 h0; omega
      · have := hlast h0
        exact h ⟨h0, by omega⟩

example : (kept checkEven (List.range 6)).length ≠ 2 ∧
    makeBasis 32 sortDesc checkEven 1 6 2 1 [] = .insufficient := by decide +kernel

/-- Defect: at exact fit one thread reports a shortage where several threads succeed; the same
input (states 0..5, the even ones kept, room for exactly three). -/
theorem C15_exact_fit_depends_on_threads :
    ∃ writes, Interleaving 32 checkEven 6 2 writes ∧
      makeBasis 32 sortDesc checkEven 1 6 3 2 writes = .ok [(4, 2), (2, 2), (0, 2)] ∧
      makeBasis 32 sortDesc checkEven 1 6 3 1 [] = .insufficient :=
  ⟨_, List.Perm.refl _, by decide +kernel, by decide +kernel⟩

end Props
