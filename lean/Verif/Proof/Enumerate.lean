import Verif.Proof.MakeBasis
namespace Proof.Enumerate
open Proof.MakeBasis

/-- members from `a` on -/
def from_ (p : Nat → Bool) (n a : Nat) : List Nat := (List.range' a (n - a)).filter p

theorem from_cons (p : Nat → Bool) (n a : Nat) (h : a < n) :
    from_ p n a = if p a then a :: from_ p n (a + 1) else from_ p n (a + 1) := by
  unfold from_
  rw [show n - a = (n - (a + 1)) + 1 by omega, List.range'_succ, List.filter_cons]

theorem from_skip (p : Nat → Bool) (n a b : Nat) (hab : a ≤ b)
    (h : ∀ x, a ≤ x → x < b → x < n → p x = false) : from_ p n a = from_ p n b := by
  obtain ⟨d, rfl⟩ := Nat.exists_eq_add_of_le hab
  induction d generalizing a with
  | zero => rfl
  | succ d ih =>
    by_cases ha : a < n
    · rw [from_cons p n a ha, h a (Nat.le_refl _) (by omega) ha]
      have := ih (a + 1) (by omega) (fun x h1 h2 => h x (by omega) (by omega))
      rw [show a + (d + 1) = a + 1 + d by omega, ← this]; rfl
    · have : ∀ c, n ≤ c → from_ p n c = [] := by
        intro c hc; unfold from_; rw [show n - c = 0 by omega]; rfl
      rw [this _ (by omega), this _ (by omega)]

/-- A step function that goes to the least larger member enumerates the members. -/
theorem visit_from (next : Nat → Nat → Nat) (p : Nat → Bool) (n : Nat)
    (hstep : ∀ s y nns, s < y → y < n → p s = true → p y = true →
      s < next s nns ∧ next s nns ≤ y ∧ p (next s nns) = true) :
    ∀ m s nns, s < n → p s = true → (from_ p n s).length = m → visit next m s nns = from_ p n s := by
  intro m
  induction m with
  | zero =>
    intro s nns hs hp hm
    rw [from_cons p n s hs, if_pos hp] at hm; simp at hm
  | succ m ih =>
    intro s nns hs hp hm
    have hf := from_cons p n s hs
    rw [if_pos hp] at hf
    rw [hf] at hm ⊢
    simp only [List.length_cons, Nat.add_right_cancel_iff] at hm
    rw [visit]
    congr 1
    by_cases hne : from_ p n (s + 1) = []
    · rw [hne] at hm ⊢; simp at hm; subst hm; rfl
    · obtain ⟨y, hy⟩ := List.exists_mem_of_ne_nil _ hne
      unfold from_ at hy
      simp only [List.mem_filter, List.mem_range'_1] at hy
      have hn := hstep s y nns (by omega) (by omega) hp hy.2
      have hsk : from_ p n (s + 1) = from_ p n (next s nns) := by
        apply from_skip _ _ _ _ (by omega)
        intro x h1 h2 h3
        by_contra h4
        have := hstep s x nns (by omega) h3 hp (by simpa using h4)
        omega
      rw [hsk] at hm ⊢
      exact ih _ _ (by omega) hn.2.2 hm

/-- … starting from the least member, all of them. -/
theorem visit_filter (next : Nat → Nat → Nat) (p : Nat → Bool) (n : Nat)
    (hstep : ∀ s y nns, s < y → y < n → p s = true → p y = true →
      s < next s nns ∧ next s nns ≤ y ∧ p (next s nns) = true)
    (s0 : Nat) (h0 : s0 < n) (hp0 : p s0 = true) (hmin : ∀ x, x < s0 → p x = false) :
    visit next ((List.range n).filter p).length s0 0 = (List.range n).filter p := by
  have e : (List.range n).filter p = from_ p n s0 := by
    have : (List.range n).filter p = from_ p n 0 := by
      unfold from_; rw [Nat.sub_zero, List.range_eq_range']
    rw [this]
    exact from_skip p n 0 s0 (by omega) (fun x _ h _ => hmin x h)
  rw [e]
  exact visit_from next p n hstep _ s0 0 h0 hp0 rfl

end Proof.Enumerate
