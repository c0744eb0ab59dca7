/-!
Specification vocabulary for building a basis: which states are kept, contract of a library sort.
-/
namespace Spec

/-- The states with a positive (truncated) norm among the listed ones, with their norms, in the
order listed.  `none` stands for "not a representative". -/
def kept (check : Nat → Option Int) (states : List Nat) : List (Nat × Int) :=
  states.filterMap fun s => (check s).bind fun v => if v > 0 then some (s, v) else none

/-- Contract of a sort with comparator `a.first > b.first`: the result is a rearrangement in which
first components never increase. -/
def SortsDescending (sort : List (Nat × Int) → List (Nat × Int)) : Prop :=
  ∀ l, (sort l).Perm l ∧ (sort l).Pairwise (fun a b => b.1 ≤ a.1)

/-- A concrete sort, used only to show that the contract can be met. -/
def insertDesc (a : Nat × Int) : List (Nat × Int) → List (Nat × Int)
  | [] => [a]
  | b :: l => if b.1 ≤ a.1 then a :: b :: l else b :: insertDesc a l

/-- A concrete sort, used only to show that the contract can be met. -/
def sortDesc : List (Nat × Int) → List (Nat × Int)
  | [] => []
  | a :: l => insertDesc a (sortDesc l)

theorem insertDesc_perm (a : Nat × Int) (l : List (Nat × Int)) : (insertDesc a l).Perm (a :: l) := by
  induction l with
  | nil => exact List.Perm.refl _
  | cons b l ih =>
    rw [insertDesc]; split
    · exact List.Perm.refl _
    · exact (List.Perm.cons b ih).trans (List.Perm.swap a b l)

theorem sortDesc_contract : SortsDescending sortDesc := by
  intro l
  induction l with
  | nil => exact ⟨List.Perm.refl _, List.Pairwise.nil⟩
  | cons a l ih =>
    obtain ⟨h1, h2⟩ := ih
    refine ⟨(insertDesc_perm a _).trans (List.Perm.cons a h1), ?_⟩
    rw [sortDesc]
    generalize sortDesc l = m at h2
    induction m with
    | nil => exact List.pairwise_singleton _ _
    | cons b m ihm =>
      rw [List.pairwise_cons] at h2
      rw [insertDesc]; split
      · rename_i h
        refine List.Pairwise.cons ?_ (List.Pairwise.cons h2.1 h2.2)
        intro c hc
        rcases List.mem_cons.1 hc with rfl | hc
        · exact h
        · exact Nat.le_trans (h2.1 c hc) h
      · rename_i h
        refine List.Pairwise.cons ?_ (ihm h2.2)
        intro c hc
        rcases List.mem_cons.1 ((insertDesc_perm a m).mem_iff.1 hc) with rfl | hc
        · omega
        · exact h2.1 c hc

end Spec
