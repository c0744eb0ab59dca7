import Verif.Proof.Reserve
import Verif.Proof.Maps
/-!
Configurations of a chain as cyclic words of unit cells.
-/
namespace Proof.Reserve
open Spec Proof.Maps
open scoped BigOperators

/-- site `r` of the unit cell `j` of the part `u` of the chain -/
def cellSite (T n u j r : ℕ) : ℕ := u * (T * n) + (j * T + r)

theorem cell_lt {T n j r : ℕ} (hj : j < n) (hr : r < T) : j * T + r < T * n := by
  calc j * T + r < j * T + T := by omega
    _ = (j + 1) * T := by ring
    _ ≤ n * T := Nat.mul_le_mul_right _ hj
    _ = T * n := by ring

theorem cellSite_lt {m T n u j r : ℕ} (hu : u < m) (hj : j < n) (hr : r < T) : cellSite T n u j r < m * (T * n) := by
  have := cell_lt hj hr
  calc cellSite T n u j r < u * (T * n) + T * n := by unfold cellSite; omega
    _ = (u + 1) * (T * n) := by ring
    _ ≤ m * (T * n) := Nat.mul_le_mul_right _ hu

theorem cellSite_div {T n u j r : ℕ} (hj : j < n) (hr : r < T) : cellSite T n u j r / (T * n) = u ∧ cellSite T n u j r % (T * n) / T = j ∧
    cellSite T n u j r % (T * n) % T = r := by
  have h := cell_lt hj hr
  have h0 : 0 < T * n := by omega
  have hT : 0 < T := by omega
  unfold cellSite
  have e1 : (u * (T * n) + (j * T + r)) % (T * n) = j * T + r := by rw [mul_comm, Nat.mul_add_mod, Nat.mod_eq_of_lt h]
  refine ⟨by rw [mul_comm u, Nat.mul_add_div h0, Nat.div_eq_of_lt h, add_zero], ?_, ?_⟩
  · rw [e1, mul_comm, Nat.mul_add_div hT, Nat.div_eq_of_lt hr, add_zero]
  · rw [e1, mul_comm, Nat.mul_add_mod, Nat.mod_eq_of_lt hr]

theorem cellSite_self {T n i : ℕ} : cellSite T n (i / (T * n)) (i % (T * n) / T) (i % (T * n) % T) = i := by
  unfold cellSite
  rw [Nat.div_add_mod' (i % (T * n)) T, Nat.div_add_mod']

theorem next_cell {T n a r : ℕ} (ha : a < n) (hr : r < T) : (a * T + r + T) % (T * n) = (a + 1) % n * T + r := by
  by_cases h : a + 1 < n
  · rw [Nat.mod_eq_of_lt h, Nat.mod_eq_of_lt]
    · ring
    · have := cell_lt h hr
      calc a * T + r + T = (a + 1) * T + r := by ring
        _ < T * n := this
  · have e : a + 1 = n := by omega
    rw [e, Nat.mod_self, zero_mul, zero_add]
    have : a * T + r + T = T * n + r := by rw [← e]; ring
    rw [this, Nat.add_mod_left, Nat.mod_eq_of_lt]
    calc r < T := hr
      _ ≤ T * n := Nat.le_mul_of_pos_right _ (by omega)

variable {b m T n : ℕ} [NeZero n]

/-- the unit cells of a configuration -/
def conf (hb : 0 < b) (m T n : ℕ) (s : ℕ) : ZMod n → Fin m → Fin T → Fin b :=
  fun j u r => ⟨occ b (m * (T * n)) s (cellSite T n u j.val r), occ_lt _ _ _ _ hb⟩

/-- the charge of a unit cell -/
def cellCharge (wgt : ℕ) (x : Fin m → Fin T → Fin b) (u : Fin m) : ℕ := wgt * ∑ r, (x u r : ℕ)

/-- the charges of a configuration -/
def Charged (b m T n wgt : ℕ) (c : Fin m → ℕ) (s : ℕ) : Prop :=
  ∀ u : Fin m, wgt * ∑ i ∈ Finset.range (T * n), occ b (m * (T * n)) s (u * (T * n) + i) = c u

theorem conf_charge (hb : 0 < b) (wgt s : ℕ) (u : Fin m) :
    ∑ j : ZMod n, cellCharge wgt (conf hb m T n s j) u = wgt * ∑ i ∈ Finset.range (T * n), occ b (m * (T * n)) s (u * (T * n) + i) := by
  rw [sum_zmod, mul_comm T n, sum_blocks fun i => occ b (m * (n * T)) s (u * (n * T) + i), Finset.mul_sum]
  refine Finset.sum_congr rfl fun k hk => ?_
  have hk' := Finset.mem_range.1 hk
  unfold cellCharge conf
  rw [Finset.sum_range]
  have : ((k : ℕ) : ZMod n).val = k := by rw [ZMod.val_natCast, Nat.mod_eq_of_lt hk']
  simp only [this, cellSite, mul_comm T n]

omit [NeZero n] in
theorem conf_inj (hb : 0 < b) {s t : ℕ} (hs : s < b ^ (m * (T * n))) (ht : t < b ^ (m * (T * n))) (h : conf hb m T n s = conf hb m T n t) : s = t := by
  refine occ_ext b (m * (T * n)) s t hs ht fun i hi => ?_
  have h0 : 0 < T * n := Nat.pos_of_ne_zero fun h0 => by rw [h0, mul_zero] at hi; omega
  have hT : 0 < T := Nat.pos_of_mul_pos_right h0
  have hu : i / (T * n) < m := Nat.div_lt_of_lt_mul (by rw [mul_comm]; exact hi)
  have hj : i % (T * n) / T < n := Nat.div_lt_of_lt_mul (Nat.mod_lt _ h0)
  have hr : i % (T * n) % T < T := Nat.mod_lt _ hT
  have := congrArg (fun x => ((x ((i % (T * n) / T : ℕ) : ZMod n) ⟨_, hu⟩ ⟨_, hr⟩ : Fin b) : ℕ)) h
  simp only [conf, ZMod.val_natCast, Nat.mod_eq_of_lt hj, cellSite_self] at this
  exact this

theorem conf_surj (hb : 0 < b) (x : ZMod n → Fin m → Fin T → Fin b) : ∃ s < b ^ (m * (T * n)), conf hb m T n s = x := by
  classical
  let f : ℕ → ℕ := fun i => if h : i / (T * n) < m ∧ i % (T * n) % T < T then
    (x ((i % (T * n) / T : ℕ) : ZMod n) ⟨_, h.1⟩ ⟨_, h.2⟩ : Fin b) else 0
  have hf : ∀ i < m * (T * n), f i < b := fun i _ => by
    simp only [f]
    split
    · exact Fin.is_lt _
    · exact hb
  refine ⟨fromOcc b (m * (T * n)) f, fromOcc_lt _ _ _ hf, ?_⟩
  funext j u r
  refine Fin.ext ?_
  have hj := j.val_lt
  obtain ⟨e1, e2, e3⟩ := cellSite_div (u := u) hj r.2
  show occ b (m * (T * n)) _ (cellSite T n u j.val r) = _
  rw [occ_fromOcc _ _ _ hf _ (cellSite_lt u.2 hj r.2)]
  simp only [f, e1, e2, e3, u.2, r.2, and_self, dite_true, ZMod.natCast_zmod_val]

/-- The translation by one unit cell. -/
def Translates (b m T n : ℕ) (f : ℕ → ℕ) : Prop := ∀ s < b ^ (m * (T * n)), f s < b ^ (m * (T * n)) ∧
  ∀ u < m, ∀ i < T * n, occ b (m * (T * n)) (f s) (u * (T * n) + (i + T) % (T * n)) = occ b (m * (T * n)) s (u * (T * n) + i)

theorem conf_next (hb : 0 < b) {f : ℕ → ℕ} (hf : Translates b m T n f) {s : ℕ} (hs : s < b ^ (m * (T * n))) (j : ZMod n) :
    conf hb m T n (f s) (j + 1) = conf hb m T n s j := by
  funext u r
  refine Fin.ext ?_
  have h := (hf s hs).2 u u.2 (j.val * T + r) (cell_lt j.val_lt r.2)
  have e : (j + 1).val = (j.val + 1) % n := by
    rw [ZMod.val_add, ZMod.val_one_eq_one_mod, Nat.add_mod, Nat.mod_mod, ← Nat.add_mod]
  show occ b (m * (T * n)) (f s) (cellSite T n u (j + 1).val r) = occ b (m * (T * n)) s (cellSite T n u j.val r)
  rw [e, cellSite, cellSite, ← h, next_cell j.val_lt r.2]

theorem conf_iter (hb : 0 < b) {f : ℕ → ℕ} (hf : Translates b m T n f) {s : ℕ} (hs : s < b ^ (m * (T * n))) (k : ℕ) :
    f^[k] s < b ^ (m * (T * n)) ∧ ∀ j : ZMod n, conf hb m T n (f^[k] s) j = conf hb m T n s (j - k) := by
  induction k with
  | zero => exact ⟨hs, fun j => by simp⟩
  | succ k ih =>
    rw [Function.iterate_succ_apply']
    refine ⟨(hf _ ih.1).1, fun j => ?_⟩
    have := conf_next hb hf ih.1 (j - 1)
    rw [sub_add_cancel] at this
    rw [this, ih.2]
    congr 1
    push_cast; ring

/-- The words of unit cells with the charges. -/
abbrev ChainWords (b m T n wgt : ℕ) [NeZero n] (c : Fin m → ℕ) : Type := Words (cellCharge (b := b) (m := m) (T := T) wgt) c n

/-- The word of a configuration. -/
def wordOf (hb : 0 < b) (wgt : ℕ) (c : Fin m → ℕ) (s : ℕ) (h : Charged b m T n wgt c s) : ChainWords b m T n wgt c :=
  ⟨conf hb m T n s, fun u => (conf_charge hb wgt s u).trans (h u)⟩

/-- The number of configurations with the charges is at most the length of a list that contains them. -/
theorem words_le (hb : 0 < b) (wgt : ℕ) (c : Fin m → ℕ) (es : List ℕ)
    (hes : ∀ s < b ^ (m * (T * n)), Charged b m T n wgt c s → s ∈ es) :
    Fintype.card (ChainWords b m T n wgt c) ≤ es.length := by
  classical
  have key : ∀ x : ChainWords b m T n wgt c, ∃ s ∈ es, conf hb m T n s = x.1 := fun x => by
    obtain ⟨s, hs, e⟩ := conf_surj hb x.1
    refine ⟨s, hes s hs fun u => ?_, e⟩
    rw [← conf_charge hb wgt s u, e]
    exact x.2 u
  choose g hg he using key
  have inj : Function.Injective fun x => (⟨g x, List.mem_toFinset.2 (hg x)⟩ : es.toFinset) := fun x y h => by
    have : g x = g y := congrArg Subtype.val h
    exact Subtype.ext (by rw [← he x, ← he y, this])
  have := Fintype.card_le_of_injective _ inj
  rw [Fintype.card_coe] at this
  exact this.trans (List.toFinset_card_le es)

/-- Configurations of which no two are translates of each other. -/
theorem largest_inequivalent (hb : 0 < b) {f : ℕ → ℕ} (hf : Translates b m T n f) (wgt : ℕ) (c : Fin m → ℕ) (l : List ℕ)
    (hnd : l.Nodup) (hl : ∀ s ∈ l, s < b ^ (m * (T * n)) ∧ Charged b m T n wgt c s)
    (hmax : ∀ s ∈ l, ∀ t ∈ l, ∀ k, f^[k] s = t → s = t) :
    ∃ R : Finset (ChainWords b m T n wgt c), R.card = l.length ∧
      ∀ x ∈ R, ∀ y ∈ R, ∀ j : ZMod n, j +ᵥ x = y → x = y := by
  classical
  let g : {s // s ∈ l} → ChainWords b m T n wgt c := fun s => wordOf hb wgt c s.1 (hl s.1 s.2).2
  have hg : Function.Injective g := fun s t h =>
    Subtype.ext (conf_inj hb (hl s.1 s.2).1 (hl t.1 t.2).1 (congrArg Subtype.val h))
  refine ⟨l.attach.toFinset.map ⟨g, hg⟩, ?_, ?_⟩
  · rw [Finset.card_map, List.toFinset_card_of_nodup (List.nodup_attach.2 hnd), List.length_attach]
  · intro x hx y hy j h
    simp only [Finset.mem_map, List.mem_toFinset, List.mem_attach, true_and, Function.Embedding.coeFn_mk] at hx hy
    obtain ⟨s, rfl⟩ := hx
    obtain ⟨t, rfl⟩ := hy
    have e := conf_iter hb hf (hl s.1 s.2).1 j.val
    have : f^[j.val] s.1 = t.1 := by
      refine conf_inj (m := m) (T := T) (n := n) hb e.1 (hl t.1 t.2).1 (funext fun i => ?_)
      rw [e.2, ZMod.natCast_zmod_val]
      exact congrArg (fun w : ChainWords b m T n wgt c => w.1 i) h
    exact congrArg g (Subtype.ext (hmax s.1 s.2 t.1 t.2 _ this))

/-- Configurations that are the largest of their translates are enough. -/
theorem states_bound (hb : 0 < b) {f : ℕ → ℕ} (hf : Translates b m T n f) (wgt : ℕ) (c : Fin m → ℕ) (es l : List ℕ)
    (hes : ∀ s < b ^ (m * (T * n)), Charged b m T n wgt c s → s ∈ es)
    (hnd : l.Nodup) (hl : ∀ s ∈ l, s < b ^ (m * (T * n)) ∧ Charged b m T n wgt c s)
    (hmax : ∀ s ∈ l, ∀ t ∈ l, ∀ k, f^[k] s = t → s = t) :
    (l.length : ℝ) ≤ (1 + 1 / n) * es.length / n + n := by
  obtain ⟨R, h1, h2⟩ := largest_inequivalent hb hf wgt c l hnd hl hmax
  have h := orbits_bound _ c R h2
  rw [h1] at h
  have hw : (Fintype.card (ChainWords b m T n wgt c) : ℝ) ≤ es.length := by
    exact_mod_cast words_le hb wgt c es hes
  have hn : (0 : ℝ) < n := by exact_mod_cast NeZero.pos n
  refine h.trans ?_
  gcongr

/-- The same without the constant, for many configurations. -/
theorem states_bound_large (hb : 0 < b) {f : ℕ → ℕ} (hf : Translates b m T n f) (wgt : ℕ) (c : Fin m → ℕ) (es l : List ℕ)
    (hes : ∀ s < b ^ (m * (T * n)), Charged b m T n wgt c s → s ∈ es) (hes' : ∀ s ∈ es, s < b ^ (m * (T * n)) ∧ Charged b m T n wgt c s) (hesnd : es.Nodup)
    (hnd : l.Nodup) (hl : ∀ s ∈ l, s < b ^ (m * (T * n)) ∧ Charged b m T n wgt c s)
    (hmax : ∀ s ∈ l, ∀ t ∈ l, ∀ k, f^[k] s = t → s = t) (hbig : 8 * n ^ 3 ≤ es.length) :
    (l.length : ℝ) ≤ (1 + 1 / n) * es.length / n := by
  classical
  obtain ⟨R, h1, h2⟩ := largest_inequivalent hb hf wgt c l hnd hl hmax
  have hcard : es.length ≤ Fintype.card (ChainWords b m T n wgt c) := by
    let g : {s // s ∈ es} → ChainWords b m T n wgt c := fun s => wordOf hb wgt c s.1 (hes' s.1 s.2).2
    have hg : Function.Injective g := fun s t h =>
      Subtype.ext (conf_inj hb (hes' s.1 s.2).1 (hes' t.1 t.2).1 (congrArg Subtype.val h))
    have := Finset.card_le_univ (es.attach.toFinset.map ⟨g, hg⟩)
    rwa [Finset.card_map, List.toFinset_card_of_nodup (List.nodup_attach.2 hesnd), List.length_attach] at this
  have h := orbits_bound_large _ c R h2 (hbig.trans hcard)
  rw [h1] at h
  have hw : (Fintype.card (ChainWords b m T n wgt c) : ℝ) ≤ es.length := by
    exact_mod_cast words_le hb wgt c es hes
  have hn : (0 : ℝ) < n := by exact_mod_cast NeZero.pos n
  refine h.trans ?_
  gcongr

end Proof.Reserve
