import Verif.Proof.Archive

/-!
C37  Saved operators load back with the same keys.

A `quantum_operator` is a dictionary of named matrices, dense or sparse.  The property fails: a name that contains `.npz`, the name
of a sparse matrix that contains `sparse_`, and the name of a dense matrix that contains `sparse` or `dense_`, is not read back
(`C37_one_partial` says exactly which names survive); operators can overwrite each other and loading can raise.  For all other names the
round trip gives the operator back (`C37_partial`).
-/

namespace Props
open Model.Archive Proof.Archive

/-- A name that no part of which looks like a part of a file name. -/
def Plain {M : Type} (e : List Char × Stored M) : Prop :=
  ¬".npz".toList <:+: e.1 ∧ (if e.2.sparse then ¬"sparse_".toList <:+: e.1 else ¬"dense_".toList <:+: e.1 ∧ ¬"sparse".toList <:+: e.1)

section

variable {M B : Type} (writable : List Char → Bool) (tiny : M → Bool)

/-- Saving and loading gives every matrix back under its name, in the same order, and the basis if it was saved.
Missing: names that begin with `dense_` or `sparse_` or end in `.npz` (`C37_fails_raises`, `C37_fails_overwritten`, `C37_fails_ending`). -/
theorem C37_partial (op : List (List Char × Stored M)) (basis : Option B) (saveBasis : Bool)
    (hne : op ≠ []) (hn : (op.map Prod.fst).Nodup) (hw : ∀ e ∈ op, writable (fileName e.1 e.2) = true) (ht : ∀ e ∈ op, tiny e.2.matrix = false)
    (hp : ∀ e ∈ op, Plain e) :
    (save writable saveBasis op basis).bind (load tiny) = some (op, if saveBasis then basis else none) := by
  have hr : ∀ e ∈ op, Readable e := by
    intro e he
    have := (hp e he).2
    split at this
    · rename_i h
      exact Or.inl h
    · exact Or.inr this.2
  have hk : op.foldl (fun d e => insert d (loadedKey e.1 e.2) e.2) [] = op := by
    have : op.foldl (fun d e => insert d (loadedKey e.1 e.2) e.2) [] = op.foldl (fun d e => insert d e.1 e.2) [] := by
      apply List.foldl_ext
      intro d e he
      rw [(loadedKey_eq e.1 e.2).mpr ⟨(hp e he).1, ?_⟩]
      have := (hp e he).2
      split at this
      · rename_i h
        rw [if_pos h]
        exact this
      · rename_i h
        rw [if_neg h]
        exact this.1
    rw [this]
    simpa using insert_all op [] (by simpa using hn)
  have hload : ∀ (z : Zip M B) (b : Option B), z.foldl loadStep (some ([], none)) = some ([], b) →
      load tiny (z ++ op.map fun e => (fileName e.1 e.2, File.matrix e.2)) = some (op, b) := by
    intro z b hz
    rw [load, List.foldl_append, hz, load_loop op hr, hk, Option.bind_some]
    simp only
    rw [if_neg (by simpa using hne)]
    rw [List.filter_eq_self.mpr]
    intro e he
    simp [ht e he]
  have hb : ∀ e ∈ op, fileName e.1 e.2 ∉ [("basis.pickle".toList : List Char)] := by
    intro e _ h
    exact fileName_ne_basis e.1 e.2 (by simpa using h)
  cases saveBasis with
  | false =>
    rw [show save writable false op basis = saveLoop writable [] op from rfl, save_loop writable op _ hn hw (by simp), Option.bind_some]
    exact hload [] none rfl
  | true =>
    cases basis with
    | none =>
      rw [show save writable true op (none : Option B) = saveLoop writable [] op from rfl, save_loop writable op _ hn hw (by simp),
        Option.bind_some]
      exact hload [] none rfl
    | some b =>
      rw [save, save_loop writable op _ hn hw (by simpa using hb), Option.bind_some]
      exact hload _ (some b) rfl

/-- The names that are read back, exactly: an operator with one matrix survives if and only if its name is plain.
Missing: names that begin with `dense_` or `sparse_` or end in `.npz` (`C37_fails_raises`, `C37_fails_overwritten`, `C37_fails_ending`). -/
theorem C37_one_partial (key : List Char) (x : Stored M) (basis : Option B)
    (hw : writable (fileName key x) = true) (ht : tiny x.matrix = false) :
    (save writable false [(key, x)] basis).bind (load tiny) = some ([(key, x)], none) ↔ Plain (key, x) := by
  constructor
  · intro h
    rw [show save writable false [(key, x)] basis = saveLoop writable [] [(key, x)] from rfl, save_loop writable [(key, x)] _ (by simp) (by simpa using hw) (by simp), Option.bind_some, load] at h
    by_cases hr : Readable (key, x)
    · have hl := load_loop (B := B) [(key, x)] (by simpa using hr) [] none
      rw [List.nil_append, hl] at h
      simp only [List.foldl_cons, List.foldl_nil, Option.bind_some] at h
      have hi : insert [] (loadedKey key x) x = [(loadedKey key x, x)] := rfl
      rw [hi, if_neg (by simp)] at h
      have h' : [(loadedKey key x, x)].filter (fun e => !tiny e.2.matrix) = [(loadedKey key x, x)] := by simp [ht]
      rw [h'] at h
      simp only [Option.some.injEq, Prod.mk.injEq, List.cons.injEq, and_true] at h
      obtain ⟨h1, h2⟩ := (loadedKey_eq key x).mp h
      refine ⟨h1, ?_⟩
      simp only
      split
      · rename_i hs
        rwa [if_pos hs] at h2
      · rename_i hs
        rw [if_neg hs] at h2
        refine ⟨h2, ?_⟩
        rcases hr with hr | hr
        · exact absurd hr hs
        · exact hr
    · rw [List.nil_append, load_loop_raises [(key, x)] (key, x) (by simp) hr] at h
      simp at h
  · intro h
    exact C37_partial writable tiny [(key, x)] basis false (by simp) (by simp) (by simpa using hw) (by simpa using ht) (by simpa using h)

/-- If a dense matrix has a name that contains `sparse`, the archive of the operator is written but cannot be loaded. -/
theorem C37_fails_raises (op : List (List Char × Stored M)) (basis : Option B) (hn : (op.map Prod.fst).Nodup)
    (hw : ∀ e ∈ op, writable (fileName e.1 e.2) = true) (e : List Char × Stored M) (he : e ∈ op) (hd : e.2.sparse = false)
    (hs : "sparse".toList <:+: e.1) :
    ∃ z, save writable false op basis = some z ∧ load tiny z = none := by
  refine ⟨_, save_loop writable op [] hn hw (by simp), ?_⟩
  rw [List.nil_append, load, load_loop_raises op e he]
  · rfl
  · rintro (h | h)
    · rw [hd] at h
      exact absurd h (by simp)
    · exact h hs

end

/-- Names with which the hypotheses of `C37_partial` hold: a dense and a sparse matrix, with a basis. -/
example : (save (fun _ => true) true [("Jzz_sparse".toList, ⟨true, 3⟩), ("dense".toList, ⟨false, 4⟩)] (some ())).bind (load fun x : Nat => x = 0)
    = some ([("Jzz_sparse".toList, ⟨true, 3⟩), ("dense".toList, ⟨false, 4⟩)], some ()) :=
  C37_partial _ _ _ _ _ (by simp) (by simp) (by simp) (by simp) (by
    intro e he
    simp only [List.mem_cons, List.not_mem_nil, or_false] at he
    rcases he with rfl | rfl <;> (unfold Plain; decide))

/-- Two sparse matrices named `x` and `sparse_x`: after loading there is one, named `x`. -/
theorem C37_fails_overwritten :
    (save (B := Unit) (fun _ => true) false [("x".toList, ⟨true, 3⟩), ("sparse_x".toList, ⟨true, 4⟩)] none).bind (load fun x : Nat => x = 0)
      = some ([("x".toList, ⟨true, 4⟩)], none) := by decide

/-- A name that contains the ending of the files loses it. -/
theorem C37_fails_ending :
    (save (B := Unit) (fun _ => true) false [("run.npz.1".toList, ⟨false, 3⟩)] none).bind (load fun x : Nat => x = 0)
      = some ([("run.1".toList, ⟨false, 3⟩)], none) := by decide

/-- An operator without matrices can be saved and not loaded. -/
theorem C37_fails_empty : (save (M := Nat) (B := Unit) (fun _ => true) false [] none).isSome = true ∧
    (save (M := Nat) (B := Unit) (fun _ => true) false [] none).bind (load fun x : Nat => x = 0) = none := by decide

end Props
