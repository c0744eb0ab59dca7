import Verif.Model.BitOps
import Mathlib.Algebra.BigOperators.Intervals
import Mathlib.Tactic

namespace Proof.BitOps
open Spec.BitOps Model.BitOps

theorem load_eq (k : ℕ) (m : ℕ → ℕ) (a : ℕ) : load k m a = intAt k m a := by
  induction k generalizing a with
  | zero => simp [load, intAt]
  | succ k ih =>
    rw [load, ih, intAt, intAt, Finset.sum_range_succ', Finset.mul_sum]
    simp only [pow_zero, mul_one, Nat.add_zero]
    rw [Nat.add_comm]
    congr 1
    refine Finset.sum_congr rfl fun j _ => ?_
    rw [show a + 1 + j = a + (j + 1) by omega, pow_succ]; ring

theorem intAt_lt (k : ℕ) (m : ℕ → ℕ) (hm : ∀ p, m p < 256) (a : ℕ) : intAt k m a < 256 ^ k := by
  induction k with
  | zero => simp [intAt]
  | succ k ih =>
    rw [intAt, Finset.sum_range_succ]
    have h := hm (a + k)
    have : m (a + k) * 256 ^ k ≤ 255 * 256 ^ k := Nat.mul_le_mul_right _ (by omega)
    unfold intAt at ih
    rw [pow_succ]; omega

theorem intAt_congr (k : ℕ) (m m' : ℕ → ℕ) (a : ℕ) (h : ∀ p, a ≤ p → p < a + k → m p = m' p) :
    intAt k m a = intAt k m' a := by
  refine Finset.sum_congr rfl fun j hj => ?_
  rw [h (a + j) (by omega) (by have := Finset.mem_range.1 hj; omega)]

theorem intAt_store (k v : ℕ) (m : ℕ → ℕ) (a : ℕ) : intAt k (store k a v m) a = v % 256 ^ k := by
  have : ∀ r ≤ k, intAt r (store k a v m) a = v % 256 ^ r := by
    intro r
    induction r with
    | zero => intro _; simp [intAt, Nat.mod_one]
    | succ r ih =>
      intro hr
      rw [intAt, Finset.sum_range_succ, Nat.mod_pow_succ]
      have := ih (by omega)
      rw [intAt] at this
      rw [this, store, if_pos ⟨by omega, by omega⟩, Nat.add_sub_cancel_left, Nat.mul_comm]
  exact this k le_rfl

theorem cell_apart (k : ℕ) {i j : ℕ} (h : i ≠ j) (p o : ℕ) (hp : o + k * i ≤ p) (hp' : p < o + k * i + k) :
    ¬(o + k * j ≤ p ∧ p < o + k * j + k) := by
  rintro ⟨h1, h2⟩
  rcases Nat.lt_or_gt_of_ne h with h | h
  · have := Nat.mul_le_mul_left k (show i + 1 ≤ j from h)
    rw [Nat.mul_add, Nat.mul_one] at this; omega
  · have := Nat.mul_le_mul_left k (show j + 1 ≤ i from h)
    rw [Nat.mul_add, Nat.mul_one] at this; omega

theorem cell_in (k n : ℕ) {i : ℕ} (h : i < n) : k * i + k ≤ k * n := by
  have := Nat.mul_le_mul_left k (show i + 1 ≤ n from h)
  rw [Nat.mul_add, Nat.mul_one] at this; omega

/-- Number of writes to element `i`. -/
def puts (i : ℕ) (l : List ((ℕ × ℕ) × Step)) : ℕ := l.countP fun e => e.1.2 = i ∧ e.2 = .put

theorem puts_sum (T i : ℕ) (l : List ((ℕ × ℕ) × Step)) (h : ∀ e ∈ l, e.1.1 < T) :
    puts i l = ∑ t ∈ Finset.range T, l.countP fun e => e.1 = (t, i) ∧ e.2 = .put := by
  induction l with
  | nil => simp [puts]
  | cons e l ih =>
    have ih := ih fun x hx => h x (List.mem_cons_of_mem _ hx)
    have he := h e List.mem_cons_self
    obtain ⟨⟨t, j⟩, o⟩ := e
    rw [puts] at ih ⊢
    simp only [List.countP_cons, Finset.sum_add_distrib, ih]
    congr 1
    by_cases hj : j = i
    · subst hj
      by_cases ho : o = .put
      · subst ho
        simp only [Prod.mk.injEq, and_true]
        rw [Finset.sum_eq_single t]
        · simp
        · intro b _ hb; simp [Ne.symm hb]
        · intro hb; exact absurd (Finset.mem_range.2 he) hb
      · simp [ho]
    · simp [hj]

theorem puts_all {T n : ℕ} {l : List ((ℕ × ℕ) × Step)} (h : Schedule T n l) {i : ℕ} (hi : i < n) : puts i l = T := by
  rw [puts_sum T i l fun e he => (h.1 e he).1]
  have : ∀ t ∈ Finset.range T, (l.countP fun e => e.1 = (t, i) ∧ e.2 = .put) = 1 := by
    intro t ht
    have h' := h.2 t (Finset.mem_range.1 ht) i hi
    have : (l.countP fun e => e.1 = (t, i) ∧ e.2 = .put)
        = ((l.filter fun e => e.1 = (t, i)).map (·.2)).countP (fun o => o = .put) := by
      rw [List.countP_map, List.countP_filter]
      congr 1; funext e; simp [and_comm]
    rw [this, h']; rfl
  rw [Finset.sum_congr rfl this]; simp

/-- What the mask says of element `i` in the way the loop reads it. -/
def go (J : Job) (m : ℕ → ℕ) (i : ℕ) : Bool :=
  match J.mask with | none => true | some a => decide (m (a + i) ≠ 0)

/-- The part of the history `l` that belongs to iteration `i` of thread `t`. -/
def own (t i : ℕ) (l : List ((ℕ × ℕ) × Step)) : List Step := (l.filter fun e => e.1 = (t, i)).map (·.2)

theorem own_append (t i : ℕ) (a b : List ((ℕ × ℕ) × Step)) : own t i (a ++ b) = own t i a ++ own t i b := by
  simp [own]

theorem own_self (t i : ℕ) (o : Step) (b : List ((ℕ × ℕ) × Step)) :
    own t i (((t, i), o) :: b) = o :: own t i b := by
  simp [own]

theorem own_single_other {t i t' i' : ℕ} (h : (t', i') ≠ (t, i)) (o : Step) : own t i [((t', i'), o)] = [] := by
  simp [own, h]

structure Inv (T : ℕ) (J : Job) (m : ℕ → ℕ) (P Q₁ Q₂ : ℕ → ℕ → ℕ → Prop) (l : List ((ℕ × ℕ) × Step)) (s : State) :
    Prop where
  rest : ∀ p, ¬(J.out ≤ p ∧ p < J.out + J.k * J.n) → s.mem p = m p
  cell : ∀ i < J.n, P i (puts i l) (intAt J.k s.mem (J.out + J.k * i))
  one : ∀ t < T, ∀ i < J.n, Step.first ∈ own t i l →
    (s.reg (t, i)).1 = go J m i ∧ ∃ c ≤ puts i l, Q₁ i c (s.reg (t, i)).2.1
  two : ∀ t < T, ∀ i < J.n, Step.second ∈ own t i l → ∃ c ≤ puts i l, Q₂ i c (s.reg (t, i)).2.2

theorem puts_snoc (i : ℕ) (l : List ((ℕ × ℕ) × Step)) (e : (ℕ × ℕ) × Step) :
    puts i (l ++ [e]) = puts i l + if e.1.2 = i ∧ e.2 = .put then 1 else 0 := by
  simp [puts, List.countP_append, List.countP_cons]

theorem finish (hw : Kind → ℕ → ℕ → ℕ) (T : ℕ) (J : Job) (m : ℕ → ℕ) (P Q₁ Q₂ : ℕ → ℕ → ℕ → Prop)
    (hmask : ∀ a ∈ J.mask, Apart a J.n J.out (J.k * J.n))
    (hq1 : ∀ mem, (∀ p, ¬(J.out ≤ p ∧ p < J.out + J.k * J.n) → mem p = m p) → ∀ i < J.n, ∀ c,
      P i c (intAt J.k mem (J.out + J.k * i)) → Q₁ i c (load J.k mem (J.a₁ + J.k * i)))
    (hq2 : ∀ mem, (∀ p, ¬(J.out ≤ p ∧ p < J.out + J.k * J.n) → mem p = m p) → ∀ i < J.n, ∀ c,
      P i c (intAt J.k mem (J.out + J.k * i)) → Q₂ i c (load J.k₂ mem (J.a₂ + J.k₂ * i)))
    (hstep : ∀ i < J.n, go J m i = true → ∀ c < T, ∀ c₁ ≤ c, ∀ c₂ ≤ c, ∀ u₁ u₂, Q₁ i c₁ u₁ → Q₂ i c₂ u₂ →
      P i (c + 1) (result hw (8 * J.k) J.kind u₁ u₂ % 256 ^ J.k))
    (hskip : ∀ i < J.n, go J m i = false → ∀ c v, P i c v → P i (c + 1) v)
    (h0 : ∀ i < J.n, P i 0 (intAt J.k m (J.out + J.k * i)))
    (m' : ℕ → ℕ) (h : Finishes hw T J m m') :
    (∀ p, ¬(J.out ≤ p ∧ p < J.out + J.k * J.n) → m' p = m p) ∧
      ∀ i < J.n, P i T (intAt J.k m' (J.out + J.k * i)) := by
  obtain ⟨l, hl, rfl⟩ := h
  suffices H : ∀ post pre s, pre ++ post = l → Inv T J m P Q₁ Q₂ pre s →
      Inv T J m P Q₁ Q₂ l (post.foldl (step hw J) s) by
    have := H l [] ⟨m, fun _ => (false, 0, 0)⟩ rfl
      ⟨fun _ _ => rfl, fun i hi => by simpa [puts] using h0 i hi, by simp [own], by simp [own]⟩
    refine ⟨this.rest, fun i hi => ?_⟩
    have hc := this.cell i hi
    rwa [puts_all hl hi] at hc
  intro post
  induction post with
  | nil => intro pre s hp hi; rw [List.append_nil] at hp; subst hp; exact hi
  | cons e post ih =>
    intro pre s hp hi
    refine ih (pre ++ [e]) _ (by simpa using hp) ?_
    obtain ⟨⟨t, i⟩, o⟩ := e
    have he := hl.1 ((t, i), o) (by rw [← hp]; simp)
    obtain ⟨ht, hin⟩ : t < T ∧ i < J.n := he
    have hprog : own t i pre ++ (o :: own t i post) = [.first, .second, .put] := by
      rw [← own_self t i o post, ← own_append, hp]; exact hl.2 t ht i hin
    have hmono : ∀ j, puts j pre ≤ puts j (pre ++ [((t, i), o)]) := fun j => by rw [puts_snoc]; omega
    have hother : ∀ t' i', (t', i') ≠ (t, i) → own t' i' (pre ++ [((t, i), o)]) = own t' i' pre := by
      intro t' i' hne
      rw [own_append, own_single_other (Ne.symm hne), List.append_nil]
    cases o with
    | first =>
      have hp0 : ∀ j, puts j (pre ++ [((t, i), Step.first)]) = puts j pre := fun j => by rw [puts_snoc]; simp
      have hd : own t i pre = [] := by
        rcases hpre : own t i pre with _ | ⟨a, _ | ⟨b, _ | ⟨c, r⟩⟩⟩ <;> rw [hpre] at hprog <;> simp at hprog
      refine ⟨hi.rest, fun j hj => by rw [hp0]; exact hi.cell j hj, ?_, ?_⟩
      · intro t' ht' i' hi' hmem
        rw [hp0]
        by_cases hne : (t', i') = (t, i)
        · obtain ⟨rfl, rfl⟩ := Prod.mk.inj hne
          simp only [step, if_true]
          refine ⟨?_, puts i' pre, le_rfl, hq1 s.mem hi.rest i' hin _ (hi.cell i' hin)⟩
          rcases hM : J.mask with _ | a
          · simp [go, hM]
          · simp only [go, hM]
            rw [hi.rest (a + i')]
            rcases hmask a (by simp [hM]) with h | h <;> rintro ⟨_, _⟩ <;> omega
        · rw [hother t' i' hne] at hmem
          simp only [step, if_neg hne]
          exact hi.one t' ht' i' hi' hmem
      · intro t' ht' i' hi' hmem
        rw [hp0]
        by_cases hne : (t', i') = (t, i)
        · obtain ⟨rfl, rfl⟩ := Prod.mk.inj hne
          rw [own_append, hd, own_self] at hmem
          simp [own] at hmem
        · rw [hother t' i' hne] at hmem
          simp only [step, if_neg hne]
          exact hi.two t' ht' i' hi' hmem
    | second =>
      have hp0 : ∀ j, puts j (pre ++ [((t, i), Step.second)]) = puts j pre := fun j => by rw [puts_snoc]; simp
      refine ⟨hi.rest, fun j hj => by rw [hp0]; exact hi.cell j hj, ?_, ?_⟩
      · intro t' ht' i' hi' hmem
        rw [hp0]
        by_cases hne : (t', i') = (t, i)
        · obtain ⟨rfl, rfl⟩ := Prod.mk.inj hne
          rw [own_append, own_self] at hmem
          simp only [step, if_true]
          refine hi.one t' ht' i' hi' ?_
          simpa [own] using hmem
        · rw [hother t' i' hne] at hmem
          simp only [step, if_neg hne]
          exact hi.one t' ht' i' hi' hmem
      · intro t' ht' i' hi' hmem
        rw [hp0]
        by_cases hne : (t', i') = (t, i)
        · obtain ⟨rfl, rfl⟩ := Prod.mk.inj hne
          simp only [step, if_true]
          exact ⟨puts i' pre, le_rfl, hq2 s.mem hi.rest i' hin _ (hi.cell i' hin)⟩
        · rw [hother t' i' hne] at hmem
          simp only [step, if_neg hne]
          exact hi.two t' ht' i' hi' hmem
    | put =>
      have hd : own t i pre = [.first, .second] := by
        rcases hpre : own t i pre with _ | ⟨a, _ | ⟨b, _ | ⟨c, r⟩⟩⟩ <;> rw [hpre] at hprog <;> simp at hprog
        · obtain ⟨rfl, rfl, _⟩ := hprog; rfl
      have hlt : puts i pre < T := by
        rw [← puts_all hl hin, ← hp, show pre ++ ((t, i), Step.put) :: post = (pre ++ [((t, i), Step.put)]) ++ post by simp]
        have : puts i ((pre ++ [((t, i), Step.put)]) ++ post) = puts i (pre ++ [((t, i), Step.put)]) + puts i post := by
          rw [puts, List.countP_append]; rfl
        rw [this, puts_snoc]; simp; omega
      obtain ⟨hgo, c₁, hc₁, hQ₁⟩ := hi.one t ht i hin (by rw [hd]; simp)
      obtain ⟨c₂, hc₂, hQ₂⟩ := hi.two t ht i hin (by rw [hd]; simp)
      have hreg : (step hw J s ((t, i), .put)).reg = s.reg := by
        simp only [step]; split_ifs <;> rfl
      refine ⟨?_, ?_, ?_, ?_⟩
      · intro p hp'
        simp only [step]
        split_ifs with hr
        · simp only [store]
          have := cell_in J.k J.n hin
          rw [if_neg (by rintro ⟨_, _⟩; exact hp' ⟨by omega, by omega⟩)]
          exact hi.rest p hp'
        · exact hi.rest p hp'
      · intro j hj
        rw [puts_snoc]
        by_cases hji : i = j
        · subst hji
          simp only [and_self, if_true, step]
          split_ifs with hr
          · rw [intAt_store]
            exact hstep i hin (hgo ▸ hr) _ hlt c₁ hc₁ c₂ hc₂ _ _ hQ₁ hQ₂
          · exact hskip i hin (by rw [← hgo]; simpa using hr) _ _ (hi.cell i hin)
        · simp only [hji, false_and, if_false, Nat.add_zero, step]
          split_ifs with hr
          · rw [intAt_congr _ _ s.mem _ fun p h1 h2 => by
              simp only [store]; rw [if_neg (cell_apart J.k (Ne.symm hji) p J.out h1 h2)]]
            exact hi.cell j hj
          · exact hi.cell j hj
      · intro t' ht' i' hi' hmem
        rw [hreg]
        have hmem' : Step.first ∈ own t' i' pre := by
          by_cases hne : (t', i') = (t, i)
          · obtain ⟨rfl, rfl⟩ := Prod.mk.inj hne; rw [hd]; simp
          · rwa [hother t' i' hne] at hmem
        obtain ⟨a, c, hc, hq⟩ := hi.one t' ht' i' hi' hmem'
        exact ⟨a, c, hc.trans (hmono i'), hq⟩
      · intro t' ht' i' hi' hmem
        rw [hreg]
        have hmem' : Step.second ∈ own t' i' pre := by
          by_cases hne : (t', i') = (t, i)
          · obtain ⟨rfl, rfl⟩ := Prod.mk.inj hne; rw [hd]; simp
          · rwa [hother t' i' hne] at hmem
        obtain ⟨c, hc, hq⟩ := hi.two t' ht' i' hi' hmem'
        exact ⟨c, hc.trans (hmono i'), hq⟩

/-- The operators compute what they should. -/
theorem result_ok (hw : Kind → ℕ → ℕ → ℕ) (w : ℕ) (kind : Kind) (a b : ℕ) (ha : a < 2 ^ w)
    (hb : kind = .and ∨ kind = .or ∨ kind = .xor → b < 2 ^ w)
    (hs : kind = .shl ∨ kind = .shr → b < w ∨ 64 < w) :
    Result w kind a b (result hw w kind a b) ∧ result hw w kind a b < 2 ^ w := by
  have hpos : 0 < 2 ^ w := Nat.two_pow_pos w
  cases kind with
  | not =>
    refine ⟨⟨BitVec.isLt _, fun j hj => ?_⟩, BitVec.isLt _⟩
    simp only [result, BitVec.testBit_toNat, BitVec.getLsbD_not, BitVec.getLsbD_ofNat, hj, decide_true, Bool.true_and]
  | and =>
    refine ⟨fun j => ?_, BitVec.isLt _⟩
    simp [result, Nat.mod_eq_of_lt ha, Nat.mod_eq_of_lt (hb (by simp)), BitVec.toNat_and]
  | or =>
    refine ⟨fun j => ?_, BitVec.isLt _⟩
    simp [result, Nat.mod_eq_of_lt ha, Nat.mod_eq_of_lt (hb (by simp)), BitVec.toNat_or]
  | xor =>
    refine ⟨fun j => ?_, BitVec.isLt _⟩
    simp [result, Nat.mod_eq_of_lt ha, Nat.mod_eq_of_lt (hb (by simp)), BitVec.toNat_xor]
  | shl =>
    have : result hw w .shl a b = a * 2 ^ b % 2 ^ w := by
      simp only [result]
      by_cases hbw : b < w
      · rw [if_pos hbw, BitVec.toNat_shiftLeft, BitVec.toNat_ofNat, Nat.mod_eq_of_lt ha, Nat.shiftLeft_eq]
      · have h64 : ¬ w ≤ 64 := by have := hs (by simp); omega
        rw [if_neg hbw, if_neg h64]
        obtain ⟨c, rfl⟩ := Nat.exists_eq_add_of_le (show w ≤ b by omega)
        rw [pow_add, show a * (2 ^ w * 2 ^ c) = 2 ^ w * (a * 2 ^ c) by ring, Nat.mul_mod_right]
    rw [this]
    exact ⟨rfl, Nat.mod_lt _ hpos⟩
  | shr =>
    have : result hw w .shr a b = a / 2 ^ b := by
      simp only [result]
      by_cases hbw : b < w
      · rw [if_pos hbw, BitVec.toNat_ushiftRight, BitVec.toNat_ofNat, Nat.mod_eq_of_lt ha, Nat.shiftRight_eq_div_pow]
      · have h64 : ¬ w ≤ 64 := by have := hs (by simp); omega
        rw [if_neg hbw, if_neg h64]
        exact (Nat.div_eq_of_lt (ha.trans_le (Nat.pow_le_pow_right (by omega) (by omega)))).symm
    rw [this]
    exact ⟨rfl, (Nat.div_le_self _ _).trans_lt ha⟩

/-- Conjunction and disjunction do not notice that they are applied again. -/
theorem result_again (hw : Kind → ℕ → ℕ → ℕ) (w : ℕ) (kind : Kind) (hk : kind = .and ∨ kind = .or) (a b u₁ u₂ : ℕ)
    (h₁ : u₁ = a ∨ u₁ = result hw w kind a b) (h₂ : u₂ = b ∨ u₂ = result hw w kind a b) :
    result hw w kind u₁ u₂ = result hw w kind a b := by
  rcases hk with rfl | rfl <;> rcases h₁ with h₁ | h₁ <;> rcases h₂ with h₂ | h₂ <;> rw [h₁, h₂] <;>
    simp only [result, BitVec.ofNat_toNat, BitVec.setWidth_eq] <;> congr 1 <;>
    generalize BitVec.ofNat w a = A <;> generalize BitVec.ofNat w b = B <;> ext j hj <;>
    simp only [BitVec.getElem_and, BitVec.getElem_or] <;> cases A[j] <;> cases B[j] <;> rfl

theorem refuse_ok {c : Bool} {e : Err} : refuse c e = .ok () ↔ c = false := by
  cases c <;> simp [refuse]

theorem check_bind_ok {g f : Except Err Unit} : (g >>= fun _ => f) = .ok () ↔ g = .ok () ∧ f = .ok () := by
  cases g <;> simp [bind, Except.bind]

theorem checkNot_iff (x : NDArray) (out : Option NDArray) (mask : Option Mask) :
    checkNot x out mask = .ok () ↔ x.shape ≠ [] ∧ checkMask x mask = .ok () ∧ x.shape.length = 1 ∧ x.dtype.isBasis ∧
      checkOut x out = .ok () := by
  unfold checkNot
  simp only [check_bind_ok, refuse_ok]
  simp

theorem checkTwo_iff (x₁ x₂ : NDArray) (out : Option NDArray) (mask : Option Mask) :
    checkTwo x₁ x₂ out mask = .ok () ↔ x₁.shape ≠ [] ∧ checkMask x₁ mask = .ok () ∧ size x₁.shape = size x₂.shape ∧
      x₁.shape = x₂.shape ∧ x₁.shape.length = 1 ∧ x₂.shape.length = 1 ∧ x₁.dtype.isBasis ∧ x₂.dtype.isBasis ∧
      checkOut x₁ out = .ok () := by
  unfold checkTwo
  simp only [check_bind_ok, refuse_ok]
  simp

theorem checkShift_iff (x₁ x₂ : NDArray) (out : Option NDArray) (mask : Option Mask) :
    checkShift x₁ x₂ out mask = .ok () ↔ x₂.dtype.isShift ∧ x₂.shape.length = 1 ∧ x₂.contiguous ∧ x₁.shape ≠ [] ∧
      checkMask x₁ mask = .ok () ∧ size x₁.shape = size x₂.shape ∧ x₁.shape.length = 1 ∧ x₁.dtype.isBasis ∧
      checkOut x₁ out = .ok () ∧ size x₂.shape ≠ 0 := by
  unfold checkShift
  simp only [check_bind_ok, refuse_ok]
  simp

theorem checkMask_iff (x : NDArray) (mask : Option Mask) (n : ℕ) (hn : x.shape = [n]) :
    checkMask x mask = .ok () ↔ ∀ k ∈ mask, k.shape = [n] ∧ 0 < n := by
  cases mask with
  | none => simp [checkMask]
  | some k =>
    simp only [checkMask, Option.mem_def, Option.some.injEq, forall_eq', hn]
    by_cases h1 : k.shape.length = 1
    · obtain ⟨q, hq⟩ := List.length_eq_one_iff.1 h1
      simp only [hq, size, List.length_singleton, List.prod_singleton]
      by_cases h2 : n = q
      · subst h2
        by_cases h3 : n = 0
        · simp [h3]
        · simp [h3]; omega
      · simp [h2, Ne.symm h2]
    · rw [if_pos h1]
      simp only [reduceCtorEq, false_iff, not_and]
      intro h; rw [h] at h1; exact absurd rfl h1

theorem checkOut_iff (x : NDArray) (out : Option NDArray) :
    checkOut x out = .ok () ↔ ∀ o ∈ out, o.shape = x.shape ∧ o.dtype.isBasis ∧ o.contiguous := by
  cases out with
  | none => simp [checkOut]
  | some o =>
    simp only [checkOut, Option.mem_def, Option.some.injEq, forall_eq']
    by_cases h1 : o.shape = x.shape <;> by_cases h2 : o.dtype.isBasis <;> by_cases h3 : o.contiguous <;> simp [h1, h2, h3]

end Proof.BitOps
