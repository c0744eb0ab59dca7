import Verif.Proof.BitOps

/-!
# C111: the bitwise functions on arrays of basis integers

`bitwise_not`, `bitwise_and`, `bitwise_or`, `bitwise_xor`, `bitwise_leftshift` and `bitwise_rightshift` of `quspin.basis`
return, for every mask, every `out` and however the threads are scheduled, the element-wise result, and write nothing
else.
-/
namespace Props
open Spec.BitOps Model.BitOps Proof.BitOps

/-- The mask selects element `i`: no mask was given, or the element of the mask is true. -/
def selectedBy (mask : Option Mask) (m : ℕ → ℕ) (i : ℕ) : Bool :=
  match mask with | none => true | some k => decide (m (k.addr + k.stride * i) ≠ 0)

/-- What every accepted call looks like. -/
theorem call_ok {kind : Kind} {x₁ x₂ o : NDArray} {out : Option NDArray} {mask : Option Mask} {fresh : ℕ}
    {m m₀ : ℕ → ℕ} {J : Job} (h : call kind x₁ x₂ out mask fresh m = .ok (m₀, o, J)) :
    (match kind with
      | .not => checkNot x₁ out mask
      | .and | .or | .xor => checkTwo x₁ x₂ out mask
      | .shl | .shr => checkShift x₁ x₂ out mask) = .ok () ∧
    o = out.getD ⟨x₁.dtype, x₁.shape, true, fresh⟩ ∧
    m₀ = (if out.isNone then zeros m fresh (x₁.dtype.bytes * x₁.shape.headD 0) else m) ∧
    J = ⟨kind, x₁.dtype.bytes, match kind with | .shl | .shr => x₂.dtype.bytes | _ => x₁.dtype.bytes, x₁.addr, x₂.addr,
      o.addr, x₁.shape.headD 0, mask.map (·.addr)⟩ := by
  have key : ∀ (r : Except Err Unit) (v : (ℕ → ℕ) × NDArray × Job), (r >>= fun _ => pure v) = .ok (m₀, o, J) →
      r = .ok () ∧ v = (m₀, o, J) := by
    intro r v hr
    cases r with
    | error e => simp [bind, Except.bind] at hr
    | ok u => simp only [bind, Except.bind, pure, Except.pure] at hr; injection hr with hr; exact ⟨rfl, hr⟩
  cases kind <;> obtain ⟨h1, h2⟩ := key _ _ h <;> simp only [Prod.mk.injEq] at h2 <;> obtain ⟨rfl, rfl, rfl⟩ := h2 <;>
    exact ⟨h1, rfl, rfl, rfl⟩

theorem zeros_apart (m : ℕ → ℕ) (a len p : ℕ) (h : ¬(a ≤ p ∧ p < a + len)) : zeros m a len p = m p := if_neg h

theorem pow_bytes (k : ℕ) : 256 ^ k = 2 ^ (8 * k) := by rw [pow_mul]; norm_num

/-- A call that is accepted, and whose arrays have one type and whose mask is contiguous, ends, for every number of threads and
every schedule, with the result of the operation in every selected element of the array it returns, with the other elements
as they were in `out` (or zero if no `out` was given), and with every other byte of memory unchanged, provided every input
is apart from `out`, or is the array `out` itself and there is one thread or the operation is `and` or `or`.

Missing: the types of `x1`, `x2` and `out` may differ without being refused (`C111_fails_types`, `C111_fails_overrun`); a strided
mask is read wrongly (`C111_fails_mask`); in place with several threads the other operations are repeated (`C111_inplace`,
`C111_fails_inplace`); shifts of 32- and 64-bit integers by their width or more are undefined (`C111_fails_width`). -/
theorem C111_elements_partial (hw : Kind → ℕ → ℕ → ℕ) (kind : Kind) (x₁ x₂ o : NDArray) (out : Option NDArray)
    (mask : Option Mask) (fresh : ℕ) (m m₀ m' : ℕ → ℕ) (J : Job) (T n : ℕ) (hm : ∀ p, m p < 256)
    (hcall : call kind x₁ x₂ out mask fresh m = .ok (m₀, o, J)) (hT : 1 ≤ T) (hn : x₁.shape = [n])
    (htype : o.dtype = x₁.dtype) (htype₂ : kind = .and ∨ kind = .or ∨ kind = .xor → x₂.dtype = x₁.dtype)
    (hstride : ∀ k ∈ mask, k.stride = 1)
    (hcount : kind = .shl ∨ kind = .shr → ∀ i < n,
      intAt x₂.dtype.bytes m (x₂.addr + x₂.dtype.bytes * i) < 8 * x₁.dtype.bytes ∨ 64 < 8 * x₁.dtype.bytes)
    (h₁ : Apart x₁.addr (x₁.dtype.bytes * n) o.addr (o.dtype.bytes * n) ∨
      (out.isSome ∧ x₁.addr = o.addr ∧ (T = 1 ∨ kind = .and ∨ kind = .or)))
    (h₂ : kind ≠ .not → Apart x₂.addr (x₂.dtype.bytes * n) o.addr (o.dtype.bytes * n) ∨
      (out.isSome ∧ x₂.addr = o.addr ∧ x₂.dtype = o.dtype ∧ (T = 1 ∨ kind = .and ∨ kind = .or)))
    (h₃ : ∀ k ∈ mask, Apart k.addr n o.addr (o.dtype.bytes * n))
    (hfin : Finishes hw T J m₀ m') :
    (∀ r ∈ out, o = r) ∧ o.shape = [n] ∧
    (∀ i < n, if selectedBy mask m i then
        Result (8 * x₁.dtype.bytes) kind (intAt x₁.dtype.bytes m (x₁.addr + x₁.dtype.bytes * i))
          (intAt x₂.dtype.bytes m (x₂.addr + x₂.dtype.bytes * i)) (intAt o.dtype.bytes m' (o.addr + o.dtype.bytes * i))
      else intAt o.dtype.bytes m' (o.addr + o.dtype.bytes * i) =
        if out.isSome then intAt o.dtype.bytes m (o.addr + o.dtype.bytes * i) else 0) ∧
    ∀ p, ¬(o.addr ≤ p ∧ p < o.addr + o.dtype.bytes * n) → m' p = m p := by
  obtain ⟨hcheck, ho, hm₀, hJ⟩ := call_ok hcall
  have hhead : x₁.shape.headD 0 = n := by simp [hn]
  rw [hhead] at hm₀ hJ
  rw [htype] at h₁ h₂ h₃
  rw [htype]
  set k := x₁.dtype.bytes with hk
  set k₂ := x₂.dtype.bytes with hk₂
  -- memory when the loop starts
  have hrest₀ : ∀ p, ¬(o.addr ≤ p ∧ p < o.addr + k * n) → m₀ p = m p := by
    intro p hp
    rw [hm₀]
    cases out with
    | none => simp only [Option.getD_none] at ho; rw [ho] at hp; exact if_neg hp
    | some r => rfl
  have hsome : out.isSome → m₀ = m := by
    intro h; rw [hm₀]; cases out with
    | none => simp at h
    | some r => rfl
  have hm₀lt : ∀ p, m₀ p < 256 := by
    intro p; rw [hm₀]; split_ifs
    · unfold zeros; split_ifs
      · omega
      · exact hm p
    · exact hm p
  have hold : ∀ i < n, intAt k m₀ (o.addr + k * i) =
      if out.isSome then intAt k m (o.addr + k * i) else 0 := by
    intro i hi
    split_ifs with hs
    · rw [hsome hs]
    · have hnone : out = none := by simpa using hs
      have hin := cell_in k n hi
      refine Finset.sum_eq_zero fun j hj => ?_
      have := Finset.mem_range.1 hj
      subst hnone
      simp only [Option.getD_none] at ho
      rw [hm₀, ho]
      simp only [Option.isNone_none, if_true, zeros]
      rw [if_pos ⟨by omega, by omega⟩, Nat.zero_mul]
  have hJout : J.out = o.addr := by rw [hJ]
  have hJk : J.k = k := by rw [hJ]
  have hJn : J.n = n := by rw [hJ]
  have hJa₁ : J.a₁ = x₁.addr := by rw [hJ]
  have hJa₂ : J.a₂ = x₂.addr := by rw [hJ]
  have hJkind : J.kind = kind := by rw [hJ]
  have hJk₂ : kind ≠ .not → J.k₂ = k₂ := by
    intro hne
    rw [hJ]
    cases kind <;> simp only at hne ⊢
    · exact absurd rfl hne
    all_goals first | rfl | (rw [hk, hk₂, htype₂ (by simp)])
  have hJmask : J.mask = mask.map (·.addr) := by rw [hJ]
  -- the operands
  let a := fun i => intAt k m₀ (x₁.addr + k * i)
  let b := fun i => intAt k₂ m₀ (x₂.addr + k₂ * i)
  let v₀ := fun i => intAt k m₀ (o.addr + k * i)
  have ha : ∀ i < n, a i = intAt k m (x₁.addr + k * i) := by
    intro i hi
    have hin := cell_in k n hi
    rcases h₁ with h | ⟨hs, _, _⟩
    · refine intAt_congr _ _ _ _ fun p hp hp' => hrest₀ p ?_
      rintro ⟨_, _⟩; rcases h with h | h <;> omega
    · simp only [a, hsome hs]
  have hb : kind ≠ .not → ∀ i < n, b i = intAt k₂ m (x₂.addr + k₂ * i) := by
    intro hne i hi
    have hin := cell_in k₂ n hi
    rcases h₂ hne with h | ⟨hs, _, _⟩
    · refine intAt_congr _ _ _ _ fun p hp hp' => hrest₀ p ?_
      rintro ⟨_, _⟩; rcases h with h | h <;> omega
    · simp only [b, hsome hs]
  have hgo : ∀ i < n, go J m₀ i = selectedBy mask m i := by
    intro i hi
    rw [go, hJmask]
    cases hM : mask with
    | none => rfl
    | some q =>
      simp only [Option.map_some, selectedBy]
      rw [hstride q (by simp [hM]), Nat.one_mul, hrest₀]
      rintro ⟨_, _⟩; rcases h₃ q (by simp [hM]) with h | h <;> omega
  let r := fun i => result hw (8 * k) kind (a i) (b i)
  have haw : ∀ i, a i < 2 ^ (8 * k) := fun i => by rw [← pow_bytes]; exact intAt_lt k m₀ hm₀lt _
  have hres : ∀ i < n, Result (8 * k) kind (a i) (b i) (r i) ∧ r i < 2 ^ (8 * k) := by
    intro i hi
    refine result_ok hw (8 * k) kind (a i) (b i) (haw i) ?_ ?_
    · intro hkd
      have : k₂ = k := by rw [hk, hk₂, htype₂ hkd]
      rw [← pow_bytes, ← this]; exact intAt_lt k₂ m₀ hm₀lt _
    · intro hkd
      rw [hb (by rcases hkd with h | h <;> rw [h] <;> decide) i hi]
      exact hcount hkd i hi
  -- aliases
  let P : ℕ → ℕ → ℕ → Prop := fun i c v => if go J m₀ i then (if c = 0 then v = v₀ i else v = r i) else v = v₀ i
  let Q₁ : ℕ → ℕ → ℕ → Prop := fun i c u =>
    u = a i ∨ (x₁.addr = o.addr ∧ (T = 1 ∨ kind = .and ∨ kind = .or) ∧ P i c u)
  let Q₂ : ℕ → ℕ → ℕ → Prop := fun i c u => kind = .not ∨
    u = b i ∨ (x₂.addr = o.addr ∧ k₂ = k ∧ (T = 1 ∨ kind = .and ∨ kind = .or) ∧ P i c u)
  have key := finish hw T J m₀ P Q₁ Q₂
    (by
      intro q hq
      rw [hJmask] at hq
      obtain ⟨q', hq', rfl⟩ := Option.mem_map.1 hq
      rw [hJn, hJout, hJk]; exact h₃ q' hq')
    (by
      rw [hJout, hJk, hJn, hJa₁]
      intro mem hmem i hi c hP
      rw [load_eq]
      rcases h₁ with h | ⟨_, h, hh⟩
      · refine Or.inl (intAt_congr _ _ _ _ fun p hp hp' => hmem p ?_)
        have hin := cell_in k n hi
        rintro ⟨_, _⟩; rcases h with h | h <;> omega
      · exact Or.inr ⟨h, hh, by rw [h]; exact hP⟩)
    (by
      rw [hJout, hJk, hJn, hJa₂]
      intro mem hmem i hi c hP
      rw [load_eq]
      by_cases hne : kind = .not
      · exact Or.inl hne
      rw [hJk₂ hne]
      refine Or.inr ?_
      rcases h₂ hne with h | ⟨_, h, hd, hh⟩
      · refine Or.inl (intAt_congr _ _ _ _ fun p hp hp' => hmem p ?_)
        have hin := cell_in k₂ n hi
        rintro ⟨_, _⟩; rcases h with h | h <;> omega
      · have hkk : k₂ = k := by rw [hk, hk₂, hd]
        exact Or.inr ⟨h, hkk, hh, by rw [h, hkk]; exact hP⟩)
    (by
      rw [hJk, hJn, hJkind]
      intro i hi hg c hc c₁ hc₁ c₂ hc₂ u₁ u₂ hu₁ hu₂
      simp only [P, hg, if_true, Nat.succ_ne_zero, if_false]
      have hr : result hw (8 * k) kind u₁ u₂ = r i := by
        by_cases hnot : kind = .not
        · have hu : u₁ = a i := by
            rcases hu₁ with h | ⟨h, hT1 | h' | h', hP⟩
            · exact h
            · have : c₁ = 0 := by omega
              simp only [P, hg, if_true, this] at hP
              rw [hP]; simp only [v₀, a, h]
            · rw [hnot] at h'; cases h'
            · rw [hnot] at h'; cases h'
          simp only [r, hu, hnot, result]
        · have hu₂' := hu₂.resolve_left hnot
          by_cases hao : kind = .and ∨ kind = .or
          · refine result_again hw (8 * k) kind hao (a i) (b i) u₁ u₂ ?_ ?_
            · rcases hu₁ with h | ⟨h, _, hP⟩
              · exact Or.inl h
              · simp only [P, hg, if_true] at hP
                split_ifs at hP
                · left; rw [hP]; simp only [v₀, a, h]
                · exact Or.inr hP
            · rcases hu₂' with h | ⟨h, hkk, _, hP⟩
              · exact Or.inl h
              · simp only [P, hg, if_true] at hP
                split_ifs at hP
                · left; rw [hP]; simp only [v₀, b, h, hkk]
                · exact Or.inr hP
          · have e₁ : u₁ = a i := by
              rcases hu₁ with h | ⟨h, hT1, hP⟩
              · exact h
              · have hT1 := hT1.resolve_right hao
                have : c₁ = 0 := by omega
                simp only [P, hg, if_true, this] at hP
                rw [hP]; simp only [v₀, a, h]
            have e₂ : u₂ = b i := by
              rcases hu₂' with h | ⟨h, hkk, hT1, hP⟩
              · exact h
              · have hT1 := hT1.resolve_right hao
                have : c₂ = 0 := by omega
                simp only [P, hg, if_true, this] at hP
                rw [hP]; simp only [v₀, b, h, hkk]
            rw [e₁, e₂]
      rw [hr, pow_bytes, Nat.mod_eq_of_lt (hres i hi).2])
    (by
      intro i _ hg c v hP
      simp only [P, hg, Bool.false_eq_true, if_false] at hP ⊢
      exact hP)
    (by
      rw [hJout, hJk, hJn]
      intro i _
      simp only [P, if_true]
      split_ifs <;> rfl)
    m' hfin
  rw [hJout, hJk, hJn] at key
  refine ⟨?_, ?_, ?_, ?_⟩
  · intro r' hr'
    rw [ho]; cases hr'; rfl
  · cases hout : out with
    | none => rw [ho, hout]; exact hn
    | some r' =>
      rw [ho, hout, Option.getD_some]
      have hco : checkOut x₁ out = .ok () := by
        cases kind <;> simp only at hcheck
        · exact ((checkNot_iff _ _ _).1 hcheck).2.2.2.2
        · exact ((checkTwo_iff _ _ _ _).1 hcheck).2.2.2.2.2.2.2.2
        · exact ((checkTwo_iff _ _ _ _).1 hcheck).2.2.2.2.2.2.2.2
        · exact ((checkTwo_iff _ _ _ _).1 hcheck).2.2.2.2.2.2.2.2
        · exact ((checkShift_iff _ _ _ _).1 hcheck).2.2.2.2.2.2.2.2.1
        · exact ((checkShift_iff _ _ _ _).1 hcheck).2.2.2.2.2.2.2.2.1
      rw [← hn]; exact ((checkOut_iff _ _).1 hco r' hout).1
  · intro i hi
    have hP := key.2 i hi
    simp only [P] at hP
    rw [hgo i hi] at hP
    split_ifs at hP ⊢ with hsel hs' hs'
    · omega
    · rw [hP]
      have := (hres i hi).1
      rw [ha i hi] at this
      by_cases hnot : kind = .not
      · rw [hnot] at this ⊢
        simp only [Result] at this ⊢
        simpa only [hnot] using this
      · rw [hb hnot i hi] at this; exact this
    · rw [hP]; simpa [hs'] using hold i hi
    · rw [hP]; simpa [hs'] using hold i hi
  · intro p hp
    rw [key.1 p hp, hrest₀ p hp]

/-- The basis types are the unsigned integers of 32, 64, 256, 1024, 4096 and 16384 bits, the types of shifts those of 8, 16, 32 and 64 bits. -/
theorem C111_types (d : DType) :
    (d.isBasis = true ↔ d ∈ [DType.u32, .u64, .u256, .u1024, .u4096, .u16384]) ∧ (d.isShift = true ↔ d ∈ [DType.u8, .u16, .u32, .u64]) ∧
    [DType.u8, .u16, .u32, .u64, .u256, .u1024, .u4096, .u16384].map (fun d => 8 * d.bytes) = [8, 16, 32, 64, 256, 1024, 4096, 16384] := by
  cases d <;> decide

/-- Which calls are accepted: `x1` is one-dimensional of one of the six types; `x2` has the same length and is of one of these
types, or for shifts of one of the four types of numpy for unsigned integers, contiguous and not empty; a mask has the same
length and is not empty; `out` has the same length, is contiguous and of one of the six types. -/
theorem C111_accepted (kind : Kind) (x₁ x₂ : NDArray) (out : Option NDArray) (mask : Option Mask) (fresh : ℕ)
    (m : ℕ → ℕ) :
    (∃ r, call kind x₁ x₂ out mask fresh m = .ok r) ↔ ∃ n, x₁.shape = [n] ∧ x₁.dtype.isBasis ∧
      (kind = .and ∨ kind = .or ∨ kind = .xor → x₂.shape = [n] ∧ x₂.dtype.isBasis) ∧
      (kind = .shl ∨ kind = .shr → x₂.shape = [n] ∧ x₂.dtype.isShift ∧ x₂.contiguous ∧ 0 < n) ∧
      (∀ k ∈ mask, k.shape = [n] ∧ 0 < n) ∧ ∀ o ∈ out, o.shape = [n] ∧ o.dtype.isBasis ∧ o.contiguous := by
  have hbind : ∀ (r : Except Err Unit) (v : (ℕ → ℕ) × NDArray × Job),
      (∃ q, (r >>= fun _ => pure v) = .ok q) ↔ r = .ok () := by
    intro r v; cases r <;> simp [bind, Except.bind, pure, Except.pure]
  have hone : ∀ x : NDArray, x.shape ≠ [] ∧ x.shape.length = 1 ↔ ∃ n, x.shape = [n] := by
    intro x
    rw [List.length_eq_one_iff]
    exact ⟨fun h => h.2, fun ⟨n, h⟩ => ⟨by simp [h], n, h⟩⟩
  have hN : checkNot x₁ out mask = .ok () ↔ ∃ n, x₁.shape = [n] ∧ x₁.dtype.isBasis ∧
      (∀ k ∈ mask, k.shape = [n] ∧ 0 < n) ∧ ∀ o ∈ out, o.shape = [n] ∧ o.dtype.isBasis ∧ o.contiguous := by
    rw [checkNot_iff, checkOut_iff]
    constructor
    · rintro ⟨h1, h2, h3, h4, h5⟩
      obtain ⟨n, hn⟩ := (hone x₁).1 ⟨h1, h3⟩
      rw [checkMask_iff x₁ mask n hn] at h2; rw [hn] at h5
      exact ⟨n, hn, h4, h2, h5⟩
    · rintro ⟨n, hn, h4, h2, h5⟩
      rw [checkMask_iff x₁ mask n hn, hn]
      exact ⟨by simp, h2, rfl, h4, h5⟩
  have hT : checkTwo x₁ x₂ out mask = .ok () ↔ ∃ n, x₁.shape = [n] ∧ x₁.dtype.isBasis ∧
      (x₂.shape = [n] ∧ x₂.dtype.isBasis) ∧
      (∀ k ∈ mask, k.shape = [n] ∧ 0 < n) ∧ ∀ o ∈ out, o.shape = [n] ∧ o.dtype.isBasis ∧ o.contiguous := by
    rw [checkTwo_iff, checkOut_iff]
    constructor
    · rintro ⟨h1, h2, -, h3, h4, -, h5, h6, h7⟩
      obtain ⟨n, hn⟩ := (hone x₁).1 ⟨h1, h4⟩
      rw [checkMask_iff x₁ mask n hn] at h2; rw [hn] at h7 h3
      exact ⟨n, hn, h5, ⟨h3.symm, h6⟩, h2, h7⟩
    · rintro ⟨n, hn, h5, ⟨h3, h6⟩, h2, h7⟩
      rw [checkMask_iff x₁ mask n hn, hn, h3]
      exact ⟨by simp, h2, rfl, rfl, rfl, rfl, h5, h6, h7⟩
  have hS : checkShift x₁ x₂ out mask = .ok () ↔ ∃ n, x₁.shape = [n] ∧ x₁.dtype.isBasis ∧
      (x₂.shape = [n] ∧ x₂.dtype.isShift ∧ x₂.contiguous ∧ 0 < n) ∧
      (∀ k ∈ mask, k.shape = [n] ∧ 0 < n) ∧ ∀ o ∈ out, o.shape = [n] ∧ o.dtype.isBasis ∧ o.contiguous := by
    rw [checkShift_iff, checkOut_iff]
    constructor
    · rintro ⟨h1, h2, h3, h4, h5, h6, h7, h8, h9, h10⟩
      obtain ⟨n, hn⟩ := (hone x₁).1 ⟨h4, h7⟩
      obtain ⟨n', hn'⟩ := List.length_eq_one_iff.1 h2
      rw [checkMask_iff x₁ mask n hn] at h5
      rw [hn, hn'] at h6; rw [hn'] at h10; rw [hn] at h9
      simp only [size, List.prod_singleton] at h6 h10
      subst h6
      exact ⟨n, hn, h8, ⟨hn', h1, h3, by omega⟩, h5, h9⟩
    · rintro ⟨n, hn, h8, ⟨hn', h1, h3, h10⟩, h5, h9⟩
      rw [checkMask_iff x₁ mask n hn, hn, hn']
      exact ⟨h1, rfl, h3, by simp, h5, rfl, rfl, h8, h9, by simp [size]; omega⟩
  cases kind <;> refine (hbind _ _).trans ?_ <;> simp only [hN, hT, hS, reduceCtorEq, or_false, or_true,
    false_implies, true_implies, true_and, or_self]

/-- The operation in place, `f(x, y, out=x)`, with `T` threads: every selected element ends as the result of the operation
applied between once and `T` times. -/
theorem C111_inplace (hw : Kind → ℕ → ℕ → ℕ) (kind : Kind) (x₁ x₂ : NDArray) (mask : Option Mask) (fresh : ℕ)
    (m m₀ m' : ℕ → ℕ) (o : NDArray) (J : Job) (T n : ℕ) (hm : ∀ p, m p < 256)
    (hcall : call kind x₁ x₂ (some x₁) mask fresh m = .ok (m₀, o, J)) (hT : 1 ≤ T) (hn : x₁.shape = [n])
    (htype₂ : kind = .and ∨ kind = .or ∨ kind = .xor → x₂.dtype = x₁.dtype)
    (hstride : ∀ k ∈ mask, k.stride = 1)
    (hcount : kind = .shl ∨ kind = .shr → ∀ i < n,
      intAt x₂.dtype.bytes m (x₂.addr + x₂.dtype.bytes * i) < 8 * x₁.dtype.bytes ∨ 64 < 8 * x₁.dtype.bytes)
    (h₂ : kind ≠ .not → Apart x₂.addr (x₂.dtype.bytes * n) x₁.addr (x₁.dtype.bytes * n))
    (h₃ : ∀ k ∈ mask, Apart k.addr n x₁.addr (x₁.dtype.bytes * n))
    (hfin : Finishes hw T J m₀ m') :
    o = x₁ ∧ (∀ p, ¬(o.addr ≤ p ∧ p < o.addr + o.dtype.bytes * n) → m' p = m p) ∧
    ∀ i < n, if selectedBy mask m i then
        ∃ v : ℕ → ℕ, v 0 = intAt x₁.dtype.bytes m (x₁.addr + x₁.dtype.bytes * i) ∧
          (∀ c, Result (8 * x₁.dtype.bytes) kind (v c) (intAt x₂.dtype.bytes m (x₂.addr + x₂.dtype.bytes * i)) (v (c + 1))) ∧
          ∃ c, 1 ≤ c ∧ c ≤ T ∧ intAt x₁.dtype.bytes m' (o.addr + o.dtype.bytes * i) = v c
      else intAt x₁.dtype.bytes m' (o.addr + o.dtype.bytes * i) = intAt x₁.dtype.bytes m (x₁.addr + x₁.dtype.bytes * i) := by
  obtain ⟨hcheck, ho, hm₀, hJ⟩ := call_ok hcall
  have hhead : x₁.shape.headD 0 = n := by simp [hn]
  rw [hhead] at hm₀ hJ
  simp only [Option.isNone_some, Bool.false_eq_true, if_false] at hm₀
  simp only [Option.getD_some] at ho
  subst ho hm₀
  set k := o.dtype.bytes with hk
  set k₂ := x₂.dtype.bytes with hk₂
  have hJout : J.out = o.addr := by rw [hJ]
  have hJk : J.k = k := by rw [hJ]
  have hJn : J.n = n := by rw [hJ]
  have hJa₁ : J.a₁ = o.addr := by rw [hJ]
  have hJa₂ : J.a₂ = x₂.addr := by rw [hJ]
  have hJkind : J.kind = kind := by rw [hJ]
  have hJk₂ : kind ≠ .not → J.k₂ = k₂ := by
    intro hne
    rw [hJ]
    cases kind <;> simp only at hne ⊢
    · exact absurd rfl hne
    all_goals first | rfl | (rw [hk, hk₂, htype₂ (by simp)])
  have hJmask : J.mask = mask.map (·.addr) := by rw [hJ]
  let b := fun i => intAt k₂ m₀ (x₂.addr + k₂ * i)
  let v := fun i c => (fun u => result hw (8 * k) kind u (b i))^[c] (intAt k m₀ (o.addr + k * i))
  have hv : ∀ i < n, ∀ c, v i c < 2 ^ (8 * k) ∧ Result (8 * k) kind (v i c) (b i) (v i (c + 1)) ∧
      v i (c + 1) = result hw (8 * k) kind (v i c) (b i) := by
    intro i hi c
    have hsucc : ∀ c, v i (c + 1) = result hw (8 * k) kind (v i c) (b i) := fun c =>
      Function.iterate_succ_apply' _ _ _
    have hok : ∀ u < 2 ^ (8 * k), Result (8 * k) kind u (b i) (result hw (8 * k) kind u (b i)) ∧
        result hw (8 * k) kind u (b i) < 2 ^ (8 * k) := by
      intro u hu
      refine result_ok hw (8 * k) kind u (b i) hu ?_ fun hkd => hcount hkd i hi
      intro hkd
      have : k₂ = k := by rw [hk, hk₂, htype₂ hkd]
      rw [← pow_bytes, ← this]; exact intAt_lt k₂ m₀ hm _
    have hlt : v i c < 2 ^ (8 * k) := by
      induction c with
      | zero => rw [← pow_bytes]; exact intAt_lt k m₀ hm _
      | succ c ih => rw [hsucc]; exact (hok _ ih).2
    exact ⟨hlt, by rw [hsucc]; exact (hok _ hlt).1, hsucc c⟩
  have hgo : ∀ i < n, go J m₀ i = selectedBy mask m₀ i := by
    intro i hi
    rw [go, hJmask]
    cases hM : mask with
    | none => rfl
    | some q =>
      simp only [Option.map_some, selectedBy]
      rw [hstride q (by simp [hM]), Nat.one_mul]
  let P : ℕ → ℕ → ℕ → Prop := fun i c u =>
    if go J m₀ i then ∃ d ≤ c, (0 < c → 0 < d) ∧ u = v i d else u = intAt k m₀ (o.addr + k * i)
  let Q₂ : ℕ → ℕ → ℕ → Prop := fun i _ u => kind = .not ∨ u = b i
  have key := finish hw T J m₀ P P Q₂
    (by
      intro q hq
      rw [hJmask] at hq
      obtain ⟨q', hq', rfl⟩ := Option.mem_map.1 hq
      rw [hJn, hJout, hJk]; exact h₃ q' hq')
    (by
      rw [hJout, hJk, hJn, hJa₁]
      intro mem hmem i hi c hP
      rw [load_eq]; exact hP)
    (by
      rw [hJout, hJk, hJn, hJa₂]
      intro mem hmem i hi c hP
      rw [load_eq]
      by_cases hne : kind = .not
      · exact Or.inl hne
      rw [hJk₂ hne]
      refine Or.inr (intAt_congr _ _ _ _ fun p hp hp' => hmem p ?_)
      have hin := cell_in k₂ n hi
      rintro ⟨_, _⟩; rcases h₂ hne with h | h <;> omega)
    (by
      rw [hJk, hJn, hJkind]
      intro i hi hg c hc c₁ hc₁ c₂ hc₂ u₁ u₂ hu₁ hu₂
      simp only [P, hg, if_true] at hu₁ ⊢
      obtain ⟨d, hd, -, rfl⟩ := hu₁
      refine ⟨d + 1, by omega, by omega, ?_⟩
      obtain ⟨h1, h2, h3⟩ := hv i hi d
      have : result hw (8 * k) kind (v i d) u₂ = v i (d + 1) := by
        rw [h3]
        rcases hu₂ with h | h
        · subst h; rfl
        · rw [h]
      rw [this, pow_bytes, Nat.mod_eq_of_lt (hv i hi (d + 1)).1])
    (by
      intro i _ hg c u hP
      simp only [P, hg, Bool.false_eq_true, if_false] at hP ⊢
      exact hP)
    (by
      rw [hJout, hJk, hJn]
      intro i _
      simp only [P]
      split_ifs
      · exact ⟨0, le_rfl, fun h => absurd h (lt_irrefl _), rfl⟩)
    m' hfin
  rw [hJout, hJk, hJn] at key
  refine ⟨rfl, key.1, fun i hi => ?_⟩
  have hP := key.2 i hi
  simp only [P] at hP
  rw [hgo i hi] at hP
  split_ifs at hP ⊢ with hsel
  · obtain ⟨d, hd, hd', he⟩ := hP
    exact ⟨v i, rfl, fun c => (hv i hi c).2.1, d, hd' (by omega), hd, he⟩
  · exact hP

/-! ### where the promise fails -/

/-- A machine; the calls below do not shift by the width or more, so that it does not matter which. -/
def machine : Kind → ℕ → ℕ → ℕ := fun _ _ _ => 0

/-- The memory with one 32-bit integer 12 at address 0 and one, 2, at address 4. -/
def mem12 : ℕ → ℕ := fun p => if p = 0 then 12 else if p = 4 then 2 else 0

/-- The array of the 32-bit integer at the given address. -/
def one32 (a : ℕ) : NDArray := ⟨.u32, [1], true, a⟩

/-- Two threads run the single iteration one after the other. -/
def bothRun : List ((ℕ × ℕ) × Step) :=
  [((0, 0), .first), ((0, 0), .second), ((0, 0), .put), ((1, 0), .first), ((1, 0), .second), ((1, 0), .put)]

/-- One thread. -/
def once (n : ℕ) : List ((ℕ × ℕ) × Step) :=
  (List.range n).flatMap fun i => [((0, i), .first), ((0, i), .second), ((0, i), .put)]

/-- In place, `bitwise_xor(x,y,out=x)`, and likewise for `not` and the shifts: with two threads the operation may be applied twice:
`12 ^ 2` gives 12, `~12` gives 12, `12 << 2` gives 192, `12 >> 2` gives 0, because the parallel loop stands inside a parallel
region and every thread runs all of it (`general_basis_bitops.h:74-82`). -/
theorem C111_fails_inplace :
    ∀ kind ∈ [Kind.not, Kind.xor, Kind.shl, Kind.shr], ∃ m₀ o J m',
      call kind (one32 0) (one32 4) (some (one32 0)) none 100 mem12 = .ok (m₀, o, J) ∧ Finishes machine 2 J m₀ m' ∧
      intAt 4 mem12 0 = 12 ∧ intAt 4 mem12 4 = 2 ∧ ¬Result 32 kind 12 2 (intAt 4 m' o.addr) := by
  intro kind hk
  have hs : Schedule 2 1 bothRun := ⟨by decide, by decide⟩
  fin_cases hk
  · refine ⟨_, _, _, _, rfl, ⟨bothRun, hs, rfl⟩, by decide, by decide, ?_⟩
    have : intAt 4 (bothRun.foldl (step machine ⟨.not, 4, 4, 0, 4, 0, 1, none⟩) ⟨mem12, fun _ => (false, 0, 0)⟩).mem 0 = 12 := by
      decide +kernel
    suffices h : ¬Result 32 .not 12 2 (intAt 4 (bothRun.foldl (step machine ⟨.not, 4, 4, 0, 4, 0, 1, none⟩) ⟨mem12, fun _ => (false, 0, 0)⟩).mem 0) from h
    rw [this]
    rintro ⟨-, h⟩; exact absurd (h 0 (by omega)) (by decide)
  · refine ⟨_, _, _, _, rfl, ⟨bothRun, hs, rfl⟩, by decide, by decide, ?_⟩
    have : intAt 4 (bothRun.foldl (step machine ⟨.xor, 4, 4, 0, 4, 0, 1, none⟩) ⟨mem12, fun _ => (false, 0, 0)⟩).mem 0 = 12 := by
      decide +kernel
    suffices h : ¬Result 32 .xor 12 2 (intAt 4 (bothRun.foldl (step machine ⟨.xor, 4, 4, 0, 4, 0, 1, none⟩) ⟨mem12, fun _ => (false, 0, 0)⟩).mem 0) from h
    rw [this]
    intro h; exact absurd (h 1) (by decide)
  · refine ⟨_, _, _, _, rfl, ⟨bothRun, hs, rfl⟩, by decide, by decide, ?_⟩
    have : intAt 4 (bothRun.foldl (step machine ⟨.shl, 4, 4, 0, 4, 0, 1, none⟩) ⟨mem12, fun _ => (false, 0, 0)⟩).mem 0 = 192 := by
      decide +kernel
    suffices h : ¬Result 32 .shl 12 2 (intAt 4 (bothRun.foldl (step machine ⟨.shl, 4, 4, 0, 4, 0, 1, none⟩) ⟨mem12, fun _ => (false, 0, 0)⟩).mem 0) from h
    rw [this]
    intro h; simp only [Result] at h; omega
  · refine ⟨_, _, _, _, rfl, ⟨bothRun, hs, rfl⟩, by decide, by decide, ?_⟩
    have : intAt 4 (bothRun.foldl (step machine ⟨.shr, 4, 4, 0, 4, 0, 1, none⟩) ⟨mem12, fun _ => (false, 0, 0)⟩).mem 0 = 0 := by
      decide +kernel
    suffices h : ¬Result 32 .shr 12 2 (intAt 4 (bothRun.foldl (step machine ⟨.shr, 4, 4, 0, 4, 0, 1, none⟩) ⟨mem12, fun _ => (false, 0, 0)⟩).mem 0) from h
    rw [this]
    intro h; simp only [Result] at h; omega

/-- `bitwise_and` of an array of 32-bit and one of 64-bit integers is accepted, but the second is read as 32-bit integers:
`[3,3] & [1,2]` gives 0 in the second place, and not 2 (`general_basis_utils.pyx:590-593`, `617-618`). -/
theorem C111_fails_types : ∃ (m : ℕ → ℕ) (x₁ x₂ : NDArray) (m₀ : ℕ → ℕ) (o : NDArray) (J : Job) (m' : ℕ → ℕ),
    x₁.dtype = .u32 ∧ x₂.dtype = .u64 ∧ call .and x₁ x₂ none none 100 m = .ok (m₀, o, J) ∧ Finishes machine 1 J m₀ m' ∧
    intAt 4 m (x₁.addr + 4) = 3 ∧ intAt 8 m (x₂.addr + 8) = 2 ∧ o.addr = 100 ∧ intAt 4 m' 104 = 0 ∧
    ¬Result 32 .and 3 2 (intAt 4 m' 104) := by
  let m : ℕ → ℕ := fun p => if p = 0 then 3 else if p = 4 then 3 else if p = 8 then 1 else if p = 16 then 2 else 0
  have : intAt 4 ((once 2).foldl (step machine ⟨.and, 4, 4, 0, 8, 100, 2, none⟩) ⟨zeros m 100 8, fun _ => (false, 0, 0)⟩).mem 104
      = 0 := by
    decide +kernel
  refine ⟨m, ⟨.u32, [2], true, 0⟩, ⟨.u64, [2], true, 8⟩, _, _, _, _, rfl, rfl, rfl,
    ⟨once 2, ⟨by decide, by decide⟩, rfl⟩, by decide, by decide, rfl, this, ?_⟩
  have neg : ∀ v, v = 0 → ¬Result 32 .and 3 2 v := by
    rintro v rfl h; exact absurd (h 1) (by decide)
  exact neg _ this

/-- An `out` of 32-bit integers is accepted for an `x` of 64-bit integers, and the loop writes beyond its end
(`general_basis_utils.pyx:482-483`, `500`). -/
theorem C111_fails_overrun : ∃ (m : ℕ → ℕ) (x out : NDArray) (m₀ : ℕ → ℕ) (o : NDArray) (J : Job) (m' : ℕ → ℕ),
    x.dtype = .u64 ∧ out.dtype = .u32 ∧ out.shape = [1] ∧ call .not x x (some out) none 100 m = .ok (m₀, o, J) ∧
    Finishes machine 1 J m₀ m' ∧ ∃ p, ¬(out.addr ≤ p ∧ p < out.addr + 4 * 1) ∧ m' p ≠ m p := by
  have : ((once 1).foldl (step machine ⟨.not, 8, 8, 0, 0, 8, 1, none⟩) ⟨fun _ => 0, fun _ => (false, 0, 0)⟩).mem 12 = 255 := by
    decide +kernel
  refine ⟨fun _ => 0, ⟨.u64, [1], true, 0⟩, ⟨.u32, [1], true, 8⟩, _, _, _, _, rfl, rfl, rfl, rfl,
    ⟨once 1, ⟨by decide, by decide⟩, rfl⟩, 12, by decide, ?_⟩
  have neg : ∀ v, v = 255 → v ≠ 0 := by omega
  exact neg _ this

/-- A mask that is every second element of an array of type `uint8` is read as if it were contiguous: with `[1,1,0,0][::2]` the second
element is not selected, yet it is changed (`general_basis_utils.pyx:458-466`). -/
theorem C111_fails_mask : ∃ (m : ℕ → ℕ) (x out : NDArray) (mask : Mask) (m₀ : ℕ → ℕ) (o : NDArray) (J : Job) (m' : ℕ → ℕ),
    mask.stride = 2 ∧ x.dtype = .u32 ∧ call .not x x (some out) (some mask) 100 m = .ok (m₀, o, J) ∧ Finishes machine 1 J m₀ m' ∧
    selectedBy (some mask) m 1 = false ∧ intAt 4 m' (out.addr + 4) ≠ intAt 4 m (out.addr + 4) := by
  let m : ℕ → ℕ := fun p => if p = 50 ∨ p = 51 then 1 else 0
  have : intAt 4 ((once 2).foldl (step machine ⟨.not, 4, 4, 0, 0, 8, 2, some 50⟩) ⟨m, fun _ => (false, 0, 0)⟩).mem 12
      = 4294967295 := by
    decide +kernel
  refine ⟨m, ⟨.u32, [2], true, 0⟩, ⟨.u32, [2], true, 8⟩, ⟨[2], 2, 50⟩, _, _, _, _, rfl, rfl, rfl,
    ⟨once 2, ⟨by decide, by decide⟩, rfl⟩, by decide, ?_⟩
  have neg : ∀ v, v = 4294967295 → v ≠ intAt 4 m (8 + 4) := by
    rintro v rfl; decide +kernel
  exact neg _ this

/-- A 32-bit integer shifted by 32 places is whatever the machine makes of it, for instance the integer itself on a machine that
takes the number of places modulo 32; the result should be 0 (`general_basis_bitops.h:32-41`). -/
theorem C111_fails_width : ∃ (hw : Kind → ℕ → ℕ → ℕ) (m : ℕ → ℕ) (m₀ : ℕ → ℕ) (o : NDArray) (J : Job) (m' : ℕ → ℕ),
    call .shl (one32 0) (one32 4) none none 100 m = .ok (m₀, o, J) ∧ Finishes hw 1 J m₀ m' ∧ intAt 4 m 0 = 12 ∧
    intAt 4 m 4 = 32 ∧ ¬Result 32 .shl 12 32 (intAt 4 m' 100) := by
  let m : ℕ → ℕ := fun p => if p = 0 then 12 else if p = 4 then 32 else 0
  have : intAt 4 ((once 1).foldl (step (fun _ a b => a * 2 ^ (b % 32)) ⟨.shl, 4, 4, 0, 4, 100, 1, none⟩)
      ⟨zeros m 100 4, fun _ => (false, 0, 0)⟩).mem 100 = 12 := by
    decide +kernel
  refine ⟨fun _ a b => a * 2 ^ (b % 32), m, _, _, _, _, rfl, ⟨once 1, ⟨by decide, by decide⟩, rfl⟩, by decide, by decide, ?_⟩
  have neg : ∀ v, v = 12 → ¬Result 32 .shl 12 32 v := by
    rintro v rfl h; simp only [Result] at h; omega
  exact neg _ this

/-- Empty arrays: `bitwise_and` returns an empty array, the shifts raise an `IndexError`, and so does every function if it is given an
empty mask (`general_basis_utils.pyx:466`, `1018`). -/
theorem C111_fails_empty (m : ℕ → ℕ) :
    (∃ r, call .and ⟨.u32, [0], true, 0⟩ ⟨.u32, [0], true, 0⟩ none none 100 m = .ok r) ∧
    call .shl ⟨.u32, [0], true, 0⟩ ⟨.u32, [0], true, 0⟩ none none 100 m = .error .index ∧
    call .and ⟨.u32, [0], true, 0⟩ ⟨.u32, [0], true, 0⟩ none (some ⟨[0], 1, 0⟩) 100 m = .error .index :=
  ⟨⟨_, rfl⟩, rfl, rfl⟩

/-- The documentation allows any collection of integers as number of places, but every array of signed integers and every array of
wide basis integers (as in the example of the documentation) is refused (`general_basis_utils.pyx:961`). -/
theorem C111_fails_places (kind : Kind) (hk : kind = .shl ∨ kind = .shr) (x₁ x₂ : NDArray) (h : x₂.dtype.isShift = false)
    (out : Option NDArray) (mask : Option Mask) (fresh : ℕ) (m : ℕ → ℕ) :
    call kind x₁ x₂ out mask fresh m = .error .type := by
  have : checkShift x₁ x₂ out mask = .error .type := by
    simp [checkShift, h, refuse, bind, Except.bind]
  rcases hk with rfl | rfl <;> simp only [call, this] <;> rfl

/-- The hypotheses of `C111_elements_partial` are met with two threads, a mask and a new array: `[12, 12] ^ [2, 2]` where the
mask selects the first element. -/
example : ∃ (m : ℕ → ℕ) (x₁ x₂ o : NDArray) (mask : Mask) (m₀ m' : ℕ → ℕ) (J : Job),
    (∀ p, m p < 256) ∧ call .xor x₁ x₂ none (some mask) 100 m = .ok (m₀, o, J) ∧ x₁.shape = [2] ∧
    o.dtype = x₁.dtype ∧ x₂.dtype = x₁.dtype ∧ mask.stride = 1 ∧ Apart x₁.addr 8 o.addr 8 ∧ Apart x₂.addr 8 o.addr 8 ∧
    Apart mask.addr 2 o.addr 8 ∧ Finishes machine 2 J m₀ m' ∧ intAt 4 m' o.addr = 14 ∧ intAt 4 m' (o.addr + 4) = 0 := by
  let m : ℕ → ℕ := fun p => if p = 0 ∨ p = 4 then 12 else if p = 8 ∨ p = 12 then 2 else if p = 50 then 1 else 0
  let l := once 2 ++ (once 2).map fun e => ((1, e.1.2), e.2)
  refine ⟨m, ⟨.u32, [2], true, 0⟩, ⟨.u32, [2], true, 8⟩, _, ⟨[2], 1, 50⟩, _, _, _, ?_, rfl, rfl, rfl, rfl, rfl,
    Or.inl (by decide +kernel), Or.inl (by decide +kernel), Or.inl (by decide +kernel), ⟨l, ⟨by decide, by decide⟩, rfl⟩, ?_, ?_⟩
  · intro p; simp only [m]; split_ifs <;> omega
  · change intAt 4 (l.foldl (step machine ⟨.xor, 4, 4, 0, 8, 100, 2, some 50⟩) ⟨zeros m 100 8, fun _ => (false, 0, 0)⟩).mem 100 = 14
    decide +kernel
  · change intAt 4 (l.foldl (step machine ⟨.xor, 4, 4, 0, 8, 100, 2, some 50⟩) ⟨zeros m 100 8, fun _ => (false, 0, 0)⟩).mem 104 = 0
    decide +kernel

/-- Both sides of `C111_accepted` occur. -/
example (m : ℕ → ℕ) : (∃ r, call .shl ⟨.u256, [3], true, 0⟩ ⟨.u8, [3], true, 96⟩ none none 200 m = .ok r) ∧
    ¬∃ r, call .shl ⟨.u256, [3], true, 0⟩ ⟨.u8, [2], true, 96⟩ none none 200 m = .ok r :=
  ⟨⟨_, rfl⟩, by rintro ⟨r, h⟩; cases h⟩

/-- The hypotheses of `C111_inplace` are met: `C111_fails_inplace` is such a call. -/
example : (∀ p, mem12 p < 256) ∧ Apart (one32 4).addr (4 * 1) (one32 0).addr (4 * 1) ∧
    ∃ r, call .xor (one32 0) (one32 4) (some (one32 0)) none 100 mem12 = .ok r :=
  ⟨by intro p; unfold mem12; split_ifs <;> omega, by right; decide, _, rfl⟩

end Props
