import Verif.Proof.Parallel

/-!
C33: parallel evaluation over symmetry blocks.

`gen a` is the list of the values of the block `a`, one for each of the `rounds` time points.  `Run sys (start X) s` says that
`s` can be reached from the start by some interleaving of the processes.
-/

namespace Props
open Model.Blocks Proof.Blocks

variable {X A : Type}

/-- What the caller wants: for each time point the values of all blocks in the order of the blocks. -/
def blockResults (gen : A → List X) (args : List A) (rounds : Nat) : List (List X) :=
  (List.range rounds).map fun i => args.filterMap fun a => (gen a)[i]?

/-- C33: the blocks are divided into consecutive non-empty parts, one for every process: every block is handled by exactly
one worker. -/
theorem C33_distribution (args : List A) (nProcess : Nat) (r : Nat × Nat × Nat) (h : split args.length nProcess = some r) :
    (subLists args r.1 r.2.1 r.2.2).flatten = args ∧ (subLists args r.1 r.2.1 r.2.2).length = r.1 ∧ r.1 ≤ nProcess ∧
      ∀ l ∈ subLists args r.1 r.2.1 r.2.2, l ≠ [] := by
  obtain ⟨h1, h2, h3, h4⟩ := split_total h
  refine ⟨subLists_flatten args _ _ _ h2, by simp [subLists]; omega, ?_, fun l hl => ?_⟩
  · unfold split at h
    simp only at h
    split at h
    · simp only [Option.ite_none_left_eq_some, Option.some.injEq] at h
      rw [← h.2]
      assumption
    · simp only [Option.ite_none_left_eq_some, Option.some.injEq] at h
      rw [← h.2]
  · have hlen : ∀ a b, a < b → b ≤ args.length → slice args a b ≠ [] := by
      intro a b hab hb e
      have := congrArg List.length e
      simp [slice] at this
      omega
    rcases List.mem_cons.mp hl with rfl | hl
    · exact hlen 0 r.2.2 h4 (by omega)
    · obtain ⟨i, hi, rfl⟩ := List.mem_map.mp hl
      rw [List.mem_range] at hi
      have : (i + 1) * r.2.1 ≤ (r.1 - 1) * r.2.1 := Nat.mul_le_mul_right _ hi
      exact hlen _ _ (by rw [Nat.add_mul]; omega) (by omega)

/-- The values of the workers together are those of all blocks in order. -/
theorem values_flatten (gen : A → List X) (subs : List (List A)) (rounds : Nat) (crash : Nat → Bool) (hne : ∀ l ∈ subs, l ≠ [])
    (hg : ∀ a ∈ subs.flatten, (gen a).length = rounds) :
    (∀ v < subs.length, ((systemOf gen subs rounds crash).items v).length = rounds) ∧
      ∀ i < rounds, ((List.range subs.length).flatMap fun v => value (systemOf gen subs rounds crash) i v) =
        subs.flatten.filterMap fun a => (gen a)[i]? := by
  have hitem : ∀ v (hv : v < subs.length), (systemOf gen subs rounds crash).items v = zipAll ((subs[v]).map gen) := by
    intro v hv
    simp [systemOf, List.getElem?_eq_getElem hv]
  have hz : ∀ v (hv : v < subs.length), (subs[v]).map gen ≠ [] ∧ ∀ g ∈ (subs[v]).map gen, g.length = rounds := by
    intro v hv
    refine ⟨by simp [hne _ (List.getElem_mem hv)], fun g hgm => ?_⟩
    obtain ⟨a, ha, rfl⟩ := List.mem_map.mp hgm
    exact hg a (List.mem_flatten.mpr ⟨_, List.getElem_mem hv, ha⟩)
  refine ⟨fun v hv => ?_, fun i hi => ?_⟩
  · rw [hitem v hv]
    exact zipAll_length _ _ (hz v hv).1 (hz v hv).2
  · have hv : ∀ v (hv : v < subs.length), value (systemOf gen subs rounds crash) i v = (subs[v]).filterMap fun a => (gen a)[i]? := by
      intro v hv
      rw [value, hitem v hv, zipAll_get _ _ _ (hz v hv).1 (hz v hv).2 hi, Option.getD_some, List.filterMap_map]
      rfl
    rw [List.filterMap_flatten]
    have : (List.range subs.length).map (fun v => value (systemOf gen subs rounds crash) i v) =
        subs.map (List.filterMap fun a => (gen a)[i]?) := by
      refine List.ext_getElem (by simp) fun v h1 h2 => ?_
      simp only [List.getElem_map, List.getElem_range]
      exact hv v (by simpa using h1)
    rw [List.flatMap_def, this]

/-- C33: in every interleaving, whenever the parent has returned, it has yielded exactly the results of all blocks in order,
for every time point once.
Missing: blocks that end early, for which the parent waits for ever (`C33_hangs`). -/
theorem C33_results_partial (gen : A → List X) (subs : List (List A)) (rounds : Nat) (crash : Nat → Bool) (hne : ∀ l ∈ subs, l ≠ [])
    (hg : ∀ a ∈ subs.flatten, (gen a).length = rounds) (s : State X) (r : Run (systemOf gen subs rounds crash) (start X) s) :
    (∃ m ≤ rounds, s.out = (blockResults gen subs.flatten rounds).take m) ∧
      (Finished (systemOf gen subs rounds crash) s → s.out = blockResults gen subs.flatten rounds) := by
  have hI := inv_run r inv_start
  have hv := values_flatten gen subs rounds crash hne hg
  have hout : ∀ m ≤ rounds, s.i = m → s.out = (blockResults gen subs.flatten rounds).take m := by
    intro m hm hs
    rw [hI.out, hs, blockResults, ← List.map_take, List.take_range, Nat.min_eq_left hm]
    refine List.map_congr_left fun i hi => ?_
    rw [List.mem_range] at hi
    exact hv.2 i (by omega)
  have hle : s.i ≤ rounds := by
    have hP := hI.parent
    unfold PInv at hP
    split at hP
    · exact hP.1
    · exact hP.1.le
    · exact hP.1.le
  refine ⟨⟨s.i, hle, hout s.i hle rfl⟩, fun hf => ?_⟩
  have hP := hI.parent
  simp only [PInv, hf.1] at hP
  have hr : s.i = rounds := hP.1
  rw [hout rounds (le_refl _) hr, List.take_of_length_le]
  simp [blockResults]

/-- C33: no interleaving deadlocks: as long as the parent has not returned some process can make a step.
Missing: blocks that end early, for which the parent waits for ever (`C33_hangs`). -/
theorem C33_progress_partial (gen : A → List X) (subs : List (List A)) (rounds : Nat) (crash : Nat → Bool) (hne : ∀ l ∈ subs, l ≠ [])
    (hg : ∀ a ∈ subs.flatten, (gen a).length = rounds) (s : State X) (r : Run (systemOf gen subs rounds crash) (start X) s)
    (hf : ¬Finished (systemOf gen subs rounds crash) s) : ∃ t, Step (systemOf gen subs rounds crash) s t :=
  progress (inv_run r inv_start) (values_flatten gen subs rounds crash hne hg).1 hf

/-- C33: every interleaving ends: there is no infinite sequence of steps. -/
theorem C33_terminates (sys : System X) (f : Nat → State X) (h0 : f 0 = start X) : ¬∀ k, Step sys (f k) (f (k + 1)) := by
  intro h
  have hI : ∀ k, Inv sys (f k) := by
    intro k
    induction k with
    | zero => rw [h0]; exact inv_start
    | succ k ih => exact inv_step ih (h k)
  have hl : ∀ k, left sys (f k) + k ≤ left sys (f 0) := by
    intro k
    induction k with
    | zero => simp
    | succ k ih =>
      have := left_step (hI k) (h k)
      omega
  have := hl (left sys (f 0) + 1)
  omega

/-- C33: the branch without sub-processes yields the same. -/
theorem C33_sequential (gen : A → List X) (args : List A) (rounds : Nat) (hne : args ≠ []) (hg : ∀ a ∈ args, (gen a).length = rounds) :
    sequential gen args = blockResults gen args rounds := by
  have h : ∀ g ∈ args.map gen, g.length = rounds := fun g hgm => by
    obtain ⟨a, ha, rfl⟩ := List.mem_map.mp hgm
    exact hg a ha
  have hn : args.map gen ≠ [] := by simp [hne]
  unfold sequential blockResults
  refine List.ext_getElem? fun i => ?_
  by_cases hi : i < rounds
  · rw [zipAll_get _ _ _ hn h hi]
    simp [hi, List.filterMap_map]
  · rw [List.getElem?_eq_none (by rw [zipAll_length _ _ hn h]; omega), List.getElem?_eq_none (by simp; omega)]

/-- C33 fails if the generators of a worker stop early, for example because an exception is raised in the worker, or yield
more values than there are rounds: under no interleaving does the parent return, every execution ends in a deadlock. -/
theorem C33_hangs (sys : System X) (v : Nat) (hv : v < sys.n) (hl : (sys.items v).length ≠ sys.rounds) (s : State X)
    (r : Run sys (start X) s) : ¬Finished sys s := fun hf => hl (finished_lengths r hf v hv)

/-- Seven blocks on three processes: three, two and two. -/
example : split 7 3 = some (3, 2, 3) ∧ subLists [0, 1, 2, 3, 4, 5, 6] 3 2 3 = [[0, 1, 2], [3, 4], [5, 6]] := by decide

example : (∀ l ∈ subLists [0, 1, 2, 3, 4, 5, 6] 3 2 3, l ≠ []) ∧
    (∀ a ∈ (subLists [0, 1, 2, 3, 4, 5, 6] 3 2 3).flatten, ((fun a : Nat => [a, 10 + a]) a).length = 2) ∧
    blockResults (fun a : Nat => [a, 10 + a]) [0, 1, 2] 2 = [[0, 1, 2], [10, 11, 12]] := by decide

/-- A worker whose generator raises at once, in two rounds of two workers. -/
example : ((systemOf (fun a : Nat => if a = 1 then [] else [a, a]) [[0], [1]] 2 (fun v => v = 1)).items 1).length ≠ 2 := by decide

end Props
