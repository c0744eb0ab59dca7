import Verif.Proof.Ops
/-!
C10  Spin operator strings act as products of single-site matrices.

`Spec.stringOp (fun o i => onSite (spinHalf o) i) str` is the product of the textbook matrices on the
space of configurations `Fin N → Fin 2`; `Spec.conf 2 N s` is the configuration stored in `s`.
`Model.hcbOp`, `Model.spinOp` and `Model.hcp1dOp` are the library's routines: the returned state and
coefficient are the only non-zero entry of the column.
-/
namespace Props
open Spec Model Proof.Ops

/-- Symbols and sites as the routine receives them. -/
def sites {N : Nat} (str : List (Char × Fin N)) : List (Char × Nat) := str.map fun p => (p.1, (p.2 : Nat))

/-- The result `x` of a routine called on the state `s` is the column of the operator `M`. -/
def IsColumn {b N : Nat} [NeZero b] (M : Matrix (Conf b N) (Conf b N) ℂ) (s : Nat) (x : Option (Nat × ℂ)) : Prop :=
  ∃ r m, x = some (r, m) ∧ r < b ^ N ∧ ∀ t, M t (conf b N s) = if t = conf b N r then m else 0

theorem sites_reverse {N : Nat} (str : List (Char × Fin N)) :
    (sites str).reverse = str.reverse.map fun p => (p.1, (p.2 : Nat)) := by simp [sites]

/-- General spin-1/2 / hard-core boson bases: in any integer type with at least `N` bits. -/
theorem C10_general (w N : Nat) (hN : N ≤ w) (str : List (Char × Fin N))
    (hstr : ∀ p ∈ str, p.1 ∈ ['I', 'x', 'y', 'z', '+', '-', 'n']) (s : Nat) (hs : s < 2 ^ N) (A : ℂ) :
    IsColumn (b := 2) (A • stringOp (fun o i => onSite (spinHalf o) i) str) s (hcbOp w N (sites str) s A) := by
  obtain ⟨r, m, h, hr, hC⟩ := opLoop_spec (b := 2) (fun o i => onSite (spinHalf o) i) (hcbStep w N)
    (fun o => o ∈ ['I', 'x', 'y', 'z', '+', '-', 'n'])
    (fun o i r x ho hr => hcb_step w hN o i r x ho hr) s hs str.reverse (by simpa using hstr)
    (A • 1) s A hs (col_one s A)
  refine ⟨r, m, ?_, hr, ?_⟩
  · rw [hcbOp, sites_reverse]; exact h
  · simpa [Col] using hC

theorem stringOp_smul {b N : Nat} (k : Char → ℂ) (op : Char → Fin N → Matrix (Conf b N) (Conf b N) ℂ) :
    ∀ str : List (Char × Fin N), stringOp (fun o i => k o • op o i) str
      = (str.map fun p => k p.1).prod • stringOp op str
  | [] => by simp [stringOp]
  | p :: l => by
    have ih := stringOp_smul k op l
    simp only [stringOp, List.map_cons, List.prod_cons] at ih ⊢
    rw [ih, Matrix.smul_mul, Matrix.mul_smul, smul_smul]

/-- Scale of one symbol in the conventions selected by `pauli`. -/
noncomputable def pauliScale (pauli : Int) (o : Char) : ℂ :=
  if pauli = 0 ∨ o = 'I' then 1 else if pauli = -1 ∧ (o = '+' ∨ o = '-') then 1 else 2

theorem pauliFactor_eq (pauli : Int) (hp : pauli = 0 ∨ pauli = 1 ∨ pauli = -1) (l : List Char) :
    pauliFactor pauli l = (l.map (pauliScale pauli)).prod := by
  induction l with
  | nil => rcases hp with rfl | rfl | rfl <;> simp [pauliFactor]
  | cons o l ih =>
    rw [List.map_cons, List.prod_cons, ← ih]
    rcases hp with rfl | rfl | rfl
    · simp [pauliFactor, pauliScale]
    · by_cases h : o = 'I'
      · simp [pauliFactor, pauliScale, h]
      · simp [pauliFactor, pauliScale, h, pow_succ, mul_comm]
    · by_cases h : o = 'I'
      · simp [pauliFactor, pauliScale, h]
      · by_cases h1 : o = '+'
        · simp [pauliFactor, pauliScale, h1]
        · by_cases h2 : o = '-'
          · simp [pauliFactor, pauliScale, h2]
          · simp [pauliFactor, pauliScale, h, h1, h2, pow_succ, mul_comm]

theorem pauliMatrix_eq (pauli : Int) (hp : pauli = 0 ∨ pauli = 1 ∨ pauli = -1) (o : Char)
    (ho : o ∈ ['I', 'x', 'y', 'z', '+', '-']) (a c : Nat) :
    pauliMatrix pauli o a c = pauliScale pauli o * spinHalf o a c := by
  simp only [List.mem_cons, List.not_mem_nil, or_false] at ho
  rcases hp with rfl | rfl | rfl <;> rcases ho with rfl | rfl | rfl | rfl | rfl | rfl <;>
    simp [pauliMatrix, pauliScale, spinHalf] <;> (repeat' split) <;> (try simp_all) <;> (try ring)

/-- Spin-1/2 bases, in the conventions documented for `pauli = 0, 1, -1`. -/
theorem C10_spin (pauli : Int) (hp : pauli = 0 ∨ pauli = 1 ∨ pauli = -1) (w N : Nat) (hN : N ≤ w)
    (str : List (Char × Fin N)) (hstr : ∀ p ∈ str, p.1 ∈ ['I', 'x', 'y', 'z', '+', '-'])
    (s : Nat) (hs : s < 2 ^ N) (J : ℂ) :
    IsColumn (b := 2) (J • stringOp (fun o i => onSite (pauliMatrix pauli o) i) str) s
      (spinOp pauli w N (sites str) s J) := by
  obtain ⟨r, m, h, hr, hC⟩ := C10_general w N hN str
    (fun p hp => by have := hstr p hp; simp at this ⊢; tauto) s hs J
  refine ⟨r, m * pauliFactor pauli (str.map (·.1)), ?_, hr, fun t => ?_⟩
  · rw [spinOp, h, Option.map_some, sites, List.map_map]; rfl
  · have e : stringOp (b := 2) (fun o i => onSite (pauliMatrix pauli o) i) str
        = stringOp (fun o i => pauliScale pauli o • onSite (spinHalf o) i) str := by
      unfold stringOp
      congr 1
      apply List.map_congr_left
      intro p hp'
      funext t s
      simp only [onSite, Matrix.smul_apply, smul_eq_mul, pauliMatrix_eq pauli hp p.1 (hstr p hp')]
      split <;> simp
    rw [e, stringOp_smul, pauliFactor_eq pauli hp, smul_smul, mul_comm, ← smul_smul,
      Matrix.smul_apply, hC t, smul_eq_mul, List.map_map]
    split
    · rw [mul_comm]; rfl
    · simp

/-- One-dimensional spin-1/2 / hard-core boson bases. -/
theorem C10_one_dimensional (w L : Nat) (hL : L ≤ w) (str : List (Char × Fin L))
    (hstr : ∀ p ∈ str, p.1 ∈ ['I', 'x', 'y', 'z', '+', '-', 'n']) (s : Nat) (hs : s < 2 ^ L) (J : ℂ) :
    IsColumn (b := 2) (J • stringOp (fun o i => onSite (spinHalf o) i) str) s (hcp1dOp false w L (sites str) s J) := by
  obtain ⟨r, m, h, hr, hC⟩ := C10_general w L hL str hstr s hs 1
  have e : hcp1dStep false w L = hcbStep w L := by
    funext o i x
    unfold hcp1dStep hcbStep
    simp only [Bool.false_eq_true, if_false, Int.cast_one, one_mul]
    split <;> simp_all
  refine ⟨r, m * J, ?_, hr, fun t => ?_⟩
  · rw [hcp1dOp, e]; rw [hcbOp] at h; rw [h]; rfl
  · have := hC t
    rw [one_smul] at this
    rw [Matrix.smul_apply, this]
    split <;> simp [mul_comm]

/-- An unknown symbol in the position applied first is reported as an error. -/
theorem C10_unknown_symbol (w N : Nat) (str : List (Char × Nat)) (o : Char) (i s : Nat) (A : ℂ)
    (ho : o ∉ ['I', 'x', 'y', 'z', '+', '-', 'n']) : hcbOp w N (str ++ [(o, i)]) s A = none := by
  simp only [List.mem_cons, List.not_mem_nil, or_false, not_or] at ho
  simp only [hcbOp, List.reverse_append, List.reverse_cons, List.reverse_nil, List.nil_append,
    List.singleton_append, opLoop]
  have : hcbStep w N o i (s, A) = none := by
    unfold hcbStep
    obtain ⟨h1, h2, h3, h4, h5, h6, h7⟩ := ho
    split <;> simp_all
  rw [this]

/-- The hypotheses hold for e.g. the string "xyz+-n" with repeated sites on 5 sites in 32 bits; the
claim for it is non-trivial: `x` on site 1 of three sites takes `101` to `111` with weight `1/2`. -/
example : ∀ p ∈ ([('x', 1), ('y', 1), ('z', 0), ('+', 4), ('-', 4), ('n', 2)] : List (Char × Fin 5)),
    p.1 ∈ ['I', 'x', 'y', 'z', '+', '-', 'n'] := by decide
example : hcbOp 32 3 [('x', 1)] 0b101 1 = some (0b111, 1 / 2) := by
  simp [hcbOp, opLoop, hcbStep, Word.shl]

end Props
