import Verif.Proof.QuantumOperator
import Mathlib.Data.Matrix.Basic
import Mathlib.Tactic.FinCases

/-!
C23  Parameter defaults do not leak between calls.

A program is a list of events: the user makes dictionaries and writes into them, calls methods of `quantum_operator`s with a
dictionary or without one, and applies linear operators made by `aslinearoperator`.  `given p r` is what the user wrote.

The property fails (`C23_fails_*`): the methods write the missing names into the dictionary they get, and all calls without a
dictionary share one default dictionary per method.  After a call of one operator the same method of another operator with other
names raises; the dictionary of the user is changed; a linear operator stops working.  What holds:

* a call never returns a wrong value: it gives the answer for what the user wrote, or it raises (`C23_never_wrong_partial`);
* it gives that answer if the operators called before with the same dictionary have no other names (`C23_partial`);
* the dictionary of the user keeps what was written, and what is added is ones (`C23_dictionary_partial`).
-/

namespace Props
open Model.QOp Spec.Pars Proof.QOp

section

variable {n R : Type} [CommRing R] [Fintype n] (tiny : R → Bool) (ops : Nat → Op n R)

/-- After any program, a call raises or gives the answer for what the user wrote.
Missing: names the user did not write are written into the dictionary and stay there (`C23_fails_default`, `C23_fails_leak`, `C23_fails_caller`). -/
theorem C23_never_wrong_partial (hops : ∀ o, Dict (ops o)) (p : List (Event n R)) (hp : Dicts p) (o : Nat) (f : Fn) (a : Arg) (v : n → R) :
    last tiny ops p (.call o f a v) = .raised ∨
      last tiny ops p (.call o f a v) = answer tiny (ops o) f v (given p (a.ref f)) := by
  have h := run_inv tiny ops hops p hp
  rw [last, (call_fst tiny ops _ o f a v).2.2, given_eq]
  rcases use_spec ops hops h o (a.ref f) (result tiny (ops o) f v) with ⟨d, hd, _, e⟩ | ⟨_, e⟩
  · right
    rw [e]
    exact result_complete tiny (hops o) hd f v
  · left
    rw [e]

/-- After any program, a call gives the answer for what the user wrote, if every name the user wrote belongs to the operator and the operators
called before with the same dictionary have no other names.
Missing: names the user did not write are written into the dictionary and stay there (`C23_fails_default`, `C23_fails_leak`, `C23_fails_caller`). -/
theorem C23_partial (hops : ∀ o, Dict (ops o)) (p : List (Event n R)) (hp : Dicts p) (o : Nat) (f : Fn) (a : Arg) (v : n → R)
    (hk : Known (ops o) (given p (a.ref f)))
    (hc : ∀ o', Called p (a.ref f) o' → ∀ k ∈ (ops o').map Prod.fst, k ∈ (ops o).map Prod.fst) :
    last tiny ops p (.call o f a v) = answer tiny (ops o) f v (given p (a.ref f)) := by
  have h := run_inv tiny ops hops p hp
  rw [last, (call_fst tiny ops _ o f a v).2.2, given_eq]
  rcases use_spec ops hops h o (a.ref f) (result tiny (ops o) f v) with ⟨d, hd, _, e⟩ | ⟨hn, _⟩
  · rw [e]
    exact result_complete tiny (hops o) hd f v
  · exfalso
    obtain ⟨k, h1, h2⟩ := checkPars_none.mp hn
    rcases read_names tiny ops hops p hp (a.ref f) k h1 with h | ⟨o', h3, h4⟩
    · exact h2 (hk k h)
    · exact h2 (hc o' h3 k h4)

/-- Operators with the same names do not disturb each other: neither with nor without a dictionary.
Missing: names the user did not write are written into the dictionary and stay there (`C23_fails_default`, `C23_fails_leak`, `C23_fails_caller`). -/
theorem C23_same_names_partial (hops : ∀ o, Dict (ops o)) (hs : ∀ o o', SameNames (ops o) (ops o')) (p : List (Event n R)) (hp : Dicts p)
    (o : Nat) (f : Fn) (a : Arg) (v : n → R) (hk : Known (ops o) (given p (a.ref f))) :
    last tiny ops p (.call o f a v) = answer tiny (ops o) f v (given p (a.ref f)) :=
  C23_partial tiny ops hops p hp o f a v hk fun o' _ k hk => (hs o' o k).mp hk

/-- `op(**pars)` gives the matrix for its parameters after any program. -/
theorem C23_keywords (hops : ∀ o, Dict (ops o)) (p : List (Event n R)) (o : Nat) (d : Pars R) (hd : Dict d) (hk : Known (ops o) d) :
    last tiny ops p (.keywords o d) = .matrix (value (ops o) d) := by
  rw [last]
  simp only [step]
  rcases hc : checkPars (ops o) d with _ | d'
  · obtain ⟨k, h1, h2⟩ := checkPars_none.mp hc
    exact absurd (hk k h1) h2
  · simp only
    rw [sumAll_complete (hops o) (checkPars_some (hops o) (⟨hd, fun _ => rfl, fun _ h => h⟩ : Rel d d) hc).1]

/-- After any program a dictionary of the user contains what the user wrote; every other entry is a one for a name of an operator that was
called with this dictionary.
Missing: names the user did not write are written into the dictionary and stay there (`C23_fails_default`, `C23_fails_leak`, `C23_fails_caller`). -/
theorem C23_dictionary_partial (hops : ∀ o, Dict (ops o)) (p : List (Event n R)) (hp : Dicts p) (i : Nat) (k : String) (x : R) :
    ((given p (.user i)).lookup k = some x → ((run tiny ops World.start p).read (.user i)).lookup k = some x) ∧
      (((run tiny ops World.start p).read (.user i)).lookup k = some x → (given p (.user i)).lookup k = some x ∨
        (given p (.user i)).lookup k = none ∧ x = 1 ∧ ∃ o, Called p (.user i) o ∧ k ∈ (ops o).map Prod.fst) := by
  have h := (run_inv tiny ops hops p hp).read (.user i)
  rw [← given_eq] at h
  constructor
  · intro hx
    obtain ⟨y, hy⟩ := lookup_some_mem (h.sub k (List.mem_map.mpr ⟨(k, x), lookup_mem hx, rfl⟩))
    have := h.same k
    rw [coupling, coupling, hx, hy] at this
    rw [hy]
    exact congrArg some this
  · intro hx
    have hs := h.same k
    rcases hg : (given p (.user i)).lookup k with _ | y
    · right
      rw [coupling, coupling, hx, hg] at hs
      refine ⟨rfl, hs, ?_⟩
      rcases read_names tiny ops hops p hp (.user i) k (List.mem_map.mpr ⟨(k, x), lookup_mem hx, rfl⟩) with h' | h'
      · exact absurd h' ((lookup_none _ k).mp hg)
      · exact h'
    · left
      rw [coupling, coupling, hx, hg] at hs
      exact congrArg some hs.symm

/-! ### The property fails -/

/-- After a call of operator `o` without parameters that does not raise, the same method raises for every operator `o'` that lacks one of the
names, for the rest of the program (`q`). -/
theorem C23_fails_default (p q : List (Event n R)) (o o' : Nat) (f : Fn) (v v' : n → R)
    (hr : last tiny ops p (.call o f .default v) ≠ .raised) (k : String) (hk : k ∈ (ops o).map Prod.fst) (hk' : k ∉ (ops o').map Prod.fst) :
    last tiny ops (p ++ .call o f .default v :: q) (.call o' f .default v') = .raised := by
  rw [last, (call_fst tiny ops _ o f _ v).2.2] at hr
  have h1 : k ∈ ((step tiny ops (run tiny ops World.start p) (.call o f .default v)).1.read (.default f)).map Prod.fst := by
    obtain ⟨_, h2, _⟩ := call_fst tiny ops (run tiny ops World.start p) o f .default v
    rw [World.read, h2]
    generalize run tiny ops World.start p = w at hr ⊢
    unfold use at hr ⊢
    simp only [Arg.ref] at hr ⊢
    rcases hc : checkPars (ops o) (w.read (.default f)) with _ | d
    · rw [hc] at hr
      exact absurd rfl hr
    · simp only [World.write, if_true]
      unfold checkPars at hc
      split at hc
      · simp at hc
      · simp only [Option.some.injEq] at hc
        subst hc
        rw [List.map_append, List.mem_append]
        by_cases hin : k ∈ (w.read (.default f)).map Prod.fst
        · exact Or.inl hin
        · right
          rw [List.map_map, List.mem_map]
          exact ⟨k, List.mem_filter.mpr ⟨hk, by rw [(lookup_none _ k).mpr hin]; rfl⟩, rfl⟩
  have h2 := run_grows tiny ops q _ (.default f) (by simp) k h1
  have e : run tiny ops World.start (p ++ .call o f .default v :: q)
      = run tiny ops (step tiny ops (run tiny ops World.start p) (.call o f .default v)).1 q := by
    rw [run, List.foldl_append]
    rfl
  rw [last, (call_fst tiny ops _ o' f _ v').2.2, e]
  simp only [use, Arg.ref, checkPars_none.mpr ⟨k, h2, hk'⟩]

end

/-! ### Examples -/

/-- A one by one matrix. -/
def one1 (x : ℤ) : Matrix Unit Unit ℤ := fun _ _ => x

/-- Three operators: the first two have the same names. -/
def threeOps : Nat → Op Unit ℤ
  | 0 => [("J", one1 2), ("h", one1 3)]
  | 1 => [("h", one1 5), ("J", one1 7)]
  | _ => [("J", one1 11)]

theorem threeOps_dict (o : Nat) : Dict (threeOps o) := by
  unfold threeOps Dict
  split <;> simp

/-- The number a result stands for. -/
def num : Out Unit ℤ → Option ℤ
  | .nothing => none
  | .raised => none
  | .matrix M => some (M () ())
  | .vector v => some (v ())
  | .number x => some x

def isRaised : Out Unit ℤ → Bool
  | .raised => true
  | _ => false

/-- A program with a dictionary and calls with and without it; it meets the hypotheses of `C23_partial` for a call of operator 1. -/
def mixed : List (Event Unit ℤ) :=
  [.new [("h", 10)], .call 0 .tocsr (.user 0) 0, .call 2 .trace .default 0, .set 0 "J" 4, .call 1 .dot (.user 0) fun _ => 1,
    .call 0 .toarray .default 0]

example : Dicts mixed ∧ Known (threeOps 1) (given mixed (.user 0)) ∧
    ∀ o', Called mixed (.user 0) o' → ∀ k ∈ (threeOps o').map Prod.fst, k ∈ (threeOps 1).map Prod.fst := by
  refine ⟨?_, ?_, ?_⟩
  · intro d hd
    simp [mixed] at hd
    subst hd
    simp [Dict]
  · intro k hk
    have : given mixed (.user 0) = [("h", 10), ("J", 4)] := by decide
    rw [this] at hk
    simpa [threeOps, or_comm] using hk
  · rintro o' ⟨f, a, v, h, ha⟩ k hk
    simp [mixed] at h
    rcases h with ⟨rfl, rfl, rfl, _⟩ | ⟨rfl, rfl, rfl, _⟩ | ⟨rfl, rfl, rfl, _⟩ | ⟨rfl, rfl, rfl, _⟩
    · simp [threeOps] at hk ⊢
      tauto
    · simp [Arg.ref] at ha
    · exact hk
    · simp [Arg.ref] at ha

/-- The answer: `4 * 7 + 10 * 5`. -/
example : num (last (fun _ => false) threeOps mixed (.call 1 .tocsr (.user 0) 0)) = some 78 := by decide

/-- `C23_fails_default` for two operators of the example: `op0.tocsr()` and then `op2.tocsr()` raises although `op2.tocsr()` alone does not. -/
theorem C23_fails_leak :
    num (last (fun _ => false) threeOps [] (.call 2 .tocsr .default 0)) = some 11 ∧
      isRaised (last (fun _ => false) threeOps [.call 0 .tocsr .default 0] (.call 2 .tocsr .default 0)) = true := by decide

/-- The dictionary of the caller is changed: `{"J": 4}` has two entries after a call, and the same dictionary is refused by another operator. -/
theorem C23_fails_caller :
    (run (fun _ => false) threeOps World.start [.new [("J", 4)], .call 0 .tocsr (.user 0) (0 : Unit → ℤ)]).users = [[("J", 4), ("h", 1)]] ∧
      num (last (fun _ => false) threeOps [.new [("J", 4)]] (.call 2 .tocsr (.user 0) 0)) = some 44 ∧
      isRaised (last (fun _ => false) threeOps [.new [("J", 4)], .call 0 .tocsr (.user 0) 0] (.call 2 .tocsr (.user 0) 0)) = true := by
  decide

/-- A linear operator works, and raises after another operator has been turned into a linear operator. -/
theorem C23_fails_linear :
    num (last (fun _ => false) threeOps [.call 2 .aslinearoperator .default 0] (.apply 0 fun _ => 1)) = some 11 ∧
      isRaised (last (fun _ => false) (fun o => if o = 2 then [("J", one1 11)] else [("J", one1 1), ("g", one1 1)])
        [.call 2 .aslinearoperator .default 0, .call 0 .aslinearoperator .default 0] (.apply 0 fun _ => 1)) = true := by
  decide

/-- A linear operator follows later changes of the dictionary it was made with. -/
theorem C23_fails_linear_follows :
    num (last (fun _ => false) threeOps [.new [("J", 4)], .call 2 .aslinearoperator (.user 0) 0] (.apply 0 fun _ => 1)) = some 44 ∧
      num (last (fun _ => false) threeOps [.new [("J", 4)], .call 2 .aslinearoperator (.user 0) 0, .set 0 "J" 5] (.apply 0 fun _ => 1)) =
        some 55 := by
  decide

/-- `dot` leaves out a parameter below the precision of the machine, `toarray` does not. -/
theorem C23_fails_small :
    num (last (fun x => decide (x ≤ 1)) threeOps [.new [("J", 1)]] (.call 2 .dot (.user 0) fun _ => 1)) = some 0 ∧
      num (last (fun x => decide (x ≤ 1)) threeOps [.new [("J", 1)]] (.call 2 .toarray (.user 0) fun _ => 1)) = some 11 := by
  decide

end Props
