import Verif.Model.HcbBasis
import Verif.Proof.MakeBasis
import Verif.Proof.Gosper
namespace Proof.HcbBasis
open Spec Model Proof.MakeBasis Proof.Gosper

theorem visit_iterates (w : Nat) : ∀ n s nns, visit (fun s _ => nextStatePcon w s) n s nns = iterates w n s := by
  intro n
  induction n with
  | zero => intro s nns; rfl
  | succ n ih => intro s nns; rw [visit, iterates, ih]

theorem kept_noMaps (l : List Nat) : kept checkNoMaps l = l.map (fun s => (s, 1)) := by
  unfold kept checkNoMaps
  simp [List.filterMap_eq_map']

theorem widthFor_ge (n w : Nat) (h : widthFor n = some w) : n ≤ w := by
  unfold widthFor at h
  repeat' split at h
  all_goals first
    | (injection h with h; omega)
    | simp at h

theorem sector_of_gt (N k : Nat) (h : N < k) : sector N k = [] := by
  rw [← List.length_eq_zero_iff, sector_length, Nat.choose_eq_zero_of_lt h]

theorem sector_increasing (N k : Nat) : (sector N k).Pairwise (· < ·) :=
  List.Pairwise.filter _ List.pairwise_lt_range

theorem visit_sector (w N k : Nat) (hN : N ≤ w) :
    visit (fun s _ => nextStatePcon w s) (N.choose k) (s0Pcon k) 0 = sector N k := by
  rw [visit_iterates]
  by_cases hk : k ≤ N
  · exact iterates_sector w N k hN hk
  · rw [Nat.choose_eq_zero_of_lt (by omega), sector_of_gt N k (by omega)]; rfl

theorem hcbPcon_eq (w N mem k : Nat) (hN : N ≤ w) (hmem : N.choose k ≤ mem) :
    hcbPcon w N mem k = .ok ((sector N k).reverse.map (fun s => (s, 1))) := by
  unfold hcbPcon makeBasisPcon
  rw [if_neg (by omega), makeBasisPconSequential_eq, visit_sector w N k hN, if_neg]
  · rw [kept_noMaps, List.map_reverse]
  · rintro ⟨h1, h2⟩
    rw [kept_noMaps, List.length_map, List.length_dropLast, sector_length] at h2
    omega

theorem hcbSectors_eq (w N : Nat) (hN : N ≤ w) : ∀ ks mem acc,
    acc.length + (ks.map (fun b => N.choose b)).sum ≤ mem →
    hcbSectors w N mem ks acc
      = .ok (acc ++ (ks.map (fun k => (sector N k).reverse.map (fun s => (s, (1 : Int))))).flatten) := by
  intro ks
  induction ks with
  | nil => intro mem acc _; simp [hcbSectors]
  | cons k ks ih =>
    intro mem acc h
    rw [List.map_cons, List.sum_cons] at h
    rw [hcbSectors, hcbPcon_eq w N _ k hN (by omega)]
    simp only [List.length_map, List.length_reverse, sector_length]
    rw [if_neg (by omega), ih]
    · simp
    · simp only [List.length_append, List.length_map, List.length_reverse, sector_length]; omega

end Proof.HcbBasis
