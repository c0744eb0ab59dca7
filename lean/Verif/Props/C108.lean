import Verif.Model.GeneralMake
import Verif.Props.C14
import Verif.Props.C16

/-!
C108: the answers of a general basis do not depend on its history.
-/

namespace Props
open Model Model.GeneralMake

/-- What a basis was asked to be: class, size, states per site, symmetries, particles. -/
def SameRequest (a a' : Attrs) : Prop :=
  a.cls = a'.cls ∧ a.width = a'.width ∧ a.N = a'.N ∧ a.sps = a'.sps ∧ a.maps = a'.maps ∧ a.pers = a'.pers ∧ a.qs = a'.qs ∧ a.double = a'.double ∧
    a.number = a'.number

/-- A basis that holds `rows` and finds each state of the space at its place in `rows`, or not at all. -/
def Answers (rows : List (ℕ × ℤ)) (a : Attrs) : Prop :=
  a.rows = rows ∧ a.Ns = rows.length ∧ ∀ s < a.sps ^ a.N, LookupSpec (rows.map (·.1)) s (lookup a s)

/-- The number of prefixes a command asks for can be stored. -/
def Storable (sps : ℕ) : Command → Prop
  | .make _ (some n) _ => sps ^ n.toNat ≤ 2 ^ 63
  | .blocks (some n) => sps ^ n.toNat ≤ 2 ^ 63
  | _ => True

/-- Unpickling what was pickled restores the compiled object. -/
theorem load_create (cls : Cls) (width L sps : ℕ) (maps : List (List ℤ)) (pers : List ℕ) (qs : List ℤ) (double : Bool) (number : Number)
    (est : ℕ) (a : Attrs) (h : SameRequest a (create cls width L sps maps pers qs double number est).attrs) :
    load a = ⟨a, (create cls width L sps maps pers qs double number est).core⟩ := by
  obtain ⟨h1, h2, h3, h4, h5, h6, h7, h8, -⟩ := h
  simp only [create] at h1 h2 h3 h4 h5 h6 h7 h8
  cases cls <;> simp [load, create, initCore, initN, initSps, h1, h2, h3, h4, h5, h6, h7, h8]

theorem prefixLength_le (guess : ℕ → ℤ) (a : Attrs) (np : Option ℤ) : prefixLength guess a np ≤ a.N := by
  unfold prefixLength
  simp only []
  omega

theorem prefixLength_bound (guess : ℕ → ℤ) (a : Attrs) (np : Option ℤ) (hs : 0 < a.sps) (hg : ∀ n, a.sps ^ (guess n).toNat ≤ 2 ^ 63)
    (hn : ∀ n, np = some n → a.sps ^ n.toNat ≤ 2 ^ 63) : a.sps ^ prefixLength guess a np ≤ 2 ^ 63 := by
  have key : ∀ m : ℤ, a.sps ^ m.toNat ≤ 2 ^ 63 →
      a.sps ^ (min (max (if a.pers = [] ∧ a.number = .all then 0 else m) 0) (a.N : ℤ)).toNat ≤ 2 ^ 63 := by
    intro m hm
    refine le_trans (Nat.pow_le_pow_right hs ?_) hm
    split <;> omega
  unfold prefixLength
  cases np with
  | none => exact key _ (hg _)
  | some n => exact key _ (hn n rfl)

/-- Making the blocks of a basis that holds decreasing states leaves it answering. -/
theorem blocks_answers (guess : ℕ → ℤ) (b : Basis) (np : Option ℤ) (rows : List (ℕ × ℤ)) (hne : rows ≠ [])
    (hdec : (rows.map (·.1)).Pairwise (· > ·)) (hs : 0 < b.attrs.sps) (hlt : ∀ s ∈ rows.map (·.1), s < b.attrs.sps ^ b.attrs.N)
    (hg : ∀ n, b.attrs.sps ^ (guess n).toNat ≤ 2 ^ 63) (hn : ∀ n, np = some n → b.attrs.sps ^ n.toNat ≤ 2 ^ 63)
    (hm : b.attrs.made = true) (hr : b.attrs.rows = rows) (hN : b.attrs.Ns = rows.length) :
    ∃ b', makeBasisBlocks guess b np = .ok b' ∧ b'.core = b.core ∧ SameRequest b'.attrs b.attrs ∧ b'.attrs.made = true ∧
      Answers rows b'.attrs ∧ b'.attrs.est = b.attrs.est := by
  unfold makeBasisBlocks
  rw [if_neg (by simp [hm])]
  simp only []
  by_cases hk : prefixLength guess b.attrs np > 0
  · rw [if_pos hk, hr]
    have hD : 0 < b.attrs.sps ^ b.attrs.N := Nat.pow_pos hs
    have hbd := prefixLength_bound guess b.attrs np hs hg hn
    have hle := prefixLength_le guess b.attrs np
    have hne' : rows.map (·.1) ≠ [] := by simpa using hne
    obtain ⟨bl, h1, -⟩ := C16_search_blocks b.attrs.sps b.attrs.N _ hs hle hbd _ hne' hdec hlt 0 hD
    rw [h1]
    refine ⟨_, rfl, rfl, ⟨rfl, rfl, rfl, rfl, rfl, rfl, rfl, rfl, rfl⟩, hm, ⟨rfl, hN, fun s hs' => ?_⟩, rfl⟩
    obtain ⟨bl', h1', h2⟩ := C16_search_blocks b.attrs.sps b.attrs.N _ hs hle hbd _ hne' hdec hlt s hs'
    rw [h1] at h1'
    cases h1'
    unfold lookup
    rw [if_pos hk]
    exact h2
  · rw [if_neg hk]
    refine ⟨_, rfl, rfl, ⟨rfl, rfl, rfl, rfl, rfl, rfl, rfl, rfl, rfl⟩, hm, ⟨hr, hN, fun s _ => ?_⟩, rfl⟩
    simp only [lookup, lt_irrefl, ite_false, hr]
    exact C16_search _ hdec s

/-- The list of states that are pairwise different, sorted, is the decreasing one. -/
theorem descending_eq (l rows : List (ℕ × ℤ)) (hp : l.Perm rows) (hdec : (rows.map (·.1)).Pairwise (· > ·)) : descending l = rows := by
  have hdec' : rows.Pairwise fun a b => a.1 > b.1 := List.pairwise_map.1 hdec
  have h1 : (descending l).Perm rows := (List.perm_insertionSort _ l).trans hp
  have h2 : (descending l).Pairwise fun a b : ℕ × ℤ => b.1 ≤ a.1 := by
    have : Std.Total fun a b : ℕ × ℤ => b.1 ≤ a.1 := ⟨fun a b => le_total _ _⟩
    have : IsTrans (ℕ × ℤ) fun a b : ℕ × ℤ => b.1 ≤ a.1 := ⟨fun a b c h h' => le_trans h' h⟩
    exact List.pairwise_insertionSort (fun a b : ℕ × ℤ => b.1 ≤ a.1) l
  have h3 : (descending l).Pairwise fun a b : ℕ × ℤ => a.1 > b.1 := by
    have hnd : ((descending l).map (·.1)).Nodup := (h1.map _).nodup_iff.2 (hdec.imp fun {a b} (h : a > b) => (Nat.ne_of_gt h))
    have := List.pairwise_map.1 hnd
    exact (h2.and this).imp fun h => by omega
  exact List.Perm.eq_of_pairwise (fun a b _ _ h h' => by omega) h3 hdec' h1

/-- After any history of constructions with any estimates, prefixes and threads, of changes of the prefixes and of pickling, with exceptions caught,
a basis of any class of `basis_general` has the compiled object and the parameters of its constructor, never reads outside of its arrays, and once
it is made it holds the states of its block and finds each state at its place.  If it was ever made with an estimate larger than the block it is
made.  The compiled construction enters as C14, C15 and C57 describe it: it gives the states of the block, in decreasing order within each particle
sector, or says that the arrays are too small, but not if they are larger than the block.
Missing: empty blocks (`C108_fails_empty`); bases made again without an estimate (`C108_fails_again`); user bases (`C108_fails_user`,
`C108_fails_user_late`); the lookup by number in the full basis; sectors listed twice; the text printed by unpickling bosons. -/
theorem C108_history_partial (build : ℕ → Core → ℕ → Built) (guess : ℕ → ℤ) (cls : Cls) (width L sps : ℕ) (maps : List (List ℤ))
    (pers : List ℕ) (qs : List ℤ) (double : Bool) (number : Number) (est : ℕ) (rows : List (ℕ × ℤ)) (b₀ : Basis)
    (h₀ : b₀ = create cls width L sps maps pers qs double number est) (hs : 0 < b₀.attrs.sps)
    (hover : ∀ T mem, build T b₀.core mem ≠ .overrun)
    (hok : ∀ T mem l, build T b₀.core mem = .ok l → l.Perm rows ∧ (number ≠ .several → l = rows))
    (hfit : ∀ T mem, rows.length < mem → build T b₀.core mem ≠ .insufficient)
    (hne : rows ≠ []) (hdec : (rows.map (·.1)).Pairwise (· > ·)) (hlt : ∀ s ∈ rows.map (·.1), s < b₀.attrs.sps ^ b₀.attrs.N)
    (hg : ∀ n, b₀.attrs.sps ^ (guess n).toNat ≤ 2 ^ 63) (cs : List Command) (hcs : ∀ c ∈ cs, Storable b₀.attrs.sps c) :
    ∃ b, run build guess b₀ cs = some b ∧ b.core = b₀.core ∧ SameRequest b.attrs b₀.attrs ∧
      (b.attrs.made = true → Answers rows b.attrs) ∧
      ((∃ e np T, .make (some e) np T ∈ cs ∧ rows.length < e) → b.attrs.made = true) := by
  have key : ∀ cs : List Command, (∀ c ∈ cs, Storable b₀.attrs.sps c) → ∀ b : Basis, b.core = b₀.core → SameRequest b.attrs b₀.attrs →
      (b.attrs.made = true → Answers rows b.attrs) → ∃ b', run build guess b cs = some b' ∧ b'.core = b₀.core ∧ SameRequest b'.attrs b₀.attrs ∧
      (b'.attrs.made = true → Answers rows b'.attrs) ∧ (b.attrs.made = true → b'.attrs.made = true) ∧
      ((∃ e np T, .make (some e) np T ∈ cs ∧ rows.length < e) → b'.attrs.made = true) := by
    intro cs
    induction cs with
    | nil => intro _ b h1 h2 h3; exact ⟨b, rfl, h1, h2, h3, id, fun ⟨_, _, _, h, _⟩ => by simp at h⟩
    | cons c cs ih =>
      intro hc b h1 h2 h3
      have hstep : ∃ b', step build guess b c = some b' ∧ b'.core = b₀.core ∧ SameRequest b'.attrs b₀.attrs ∧
          (b'.attrs.made = true → Answers rows b'.attrs) ∧ (b.attrs.made = true → b'.attrs.made = true) ∧
          ((∃ e np T, .make (some e) np T = c ∧ rows.length < e) → b'.attrs.made = true) := by
        have hsps : b.attrs.sps = b₀.attrs.sps := h2.2.2.2.1
        have hN : b.attrs.N = b₀.attrs.N := h2.2.2.1
        cases c with
        | pickle =>
          subst h₀
          have := load_create cls width L sps maps pers qs double number est b.attrs h2
          refine ⟨load (dump b), rfl, ?_, ?_, ?_, ?_, ?_⟩
          · simp only [dump, this]
          · simp only [dump, this]; exact h2
          · simp only [dump, this]; exact h3
          · simp only [dump, this]; exact id
          · rintro ⟨_, _, _, h, _⟩; simp at h
        | blocks np =>
          by_cases hm : b.attrs.made = true
          · obtain ⟨hr, hNs, -⟩ := h3 hm
            obtain ⟨b', e1, e2, e3, e4, e5, -⟩ := blocks_answers guess b np rows hne hdec (by rw [hsps]; exact hs)
              (by rw [hsps, hN]; exact hlt) (by rw [hsps]; exact hg)
              (by
                rintro n rfl
                have := hc (.blocks (some n)) (by simp)
                rw [hsps]; exact this) hm hr hNs
            refine ⟨b', by simp [step, e1], by rw [e2, h1], ?_, fun _ => e5, fun _ => e4, fun _ => e4⟩
            obtain ⟨a1, a2, a3, a4, a5, a6, a7, a8, a9⟩ := e3
            obtain ⟨c1, c2, c3, c4, c5, c6, c7, c8, c9⟩ := h2
            exact ⟨a1.trans c1, a2.trans c2, a3.trans c3, a4.trans c4, a5.trans c5, a6.trans c6, a7.trans c7, a8.trans c8, a9.trans c9⟩
          · refine ⟨b, ?_, h1, h2, h3, id, ?_⟩
            · have hm' : b.attrs.made = false := by simpa using hm
              simp [step, makeBasisBlocks, hm']
            · rintro ⟨_, _, _, h, _⟩; simp at h
        | make e np T =>
          cases hb : build T b.core (memory b.attrs e) with
          | insufficient =>
            refine ⟨b, by simp [step, make, hb], h1, h2, h3, id, ?_⟩
            rintro ⟨e', np', T', h, hlen⟩
            simp only [Command.make.injEq] at h
            obtain ⟨rfl, -, -⟩ := h
            exfalso
            rw [h1] at hb
            refine hfit T _ (lt_of_lt_of_le hlen ?_) hb
            simp only [memory]
            split <;> omega
          | overrun => exact absurd (h1 ▸ hb) (hover T _)
          | ok l =>
            rw [h1] at hb
            obtain ⟨hp, heq⟩ := hok T _ l hb
            have hrows : (if b.attrs.number = .several then descending l else l) = rows := by
              by_cases hn : b.attrs.number = .several
              · rw [if_pos hn]; exact descending_eq l rows hp hdec
              · rw [if_neg hn]
                refine heq fun h => hn ?_
                rw [h2.2.2.2.2.2.2.2.2, h₀]; exact h
            obtain ⟨b', e1, e2, e3, e4, e5, -⟩ := blocks_answers guess
              { b with attrs := { b.attrs with rows := rows, Ns := l.length, est := l.length, made := true } } np rows hne hdec
              (by simp only [hsps]; exact hs) (by simp only [hsps, hN]; exact hlt) (by simp only [hsps]; exact hg)
              (by
                rintro n rfl
                have := hc (.make e (some n) T) (by simp)
                simp only [hsps]; exact this) rfl rfl hp.length_eq
            have hmk : step build guess b (.make e np T) = some b' := by
              simp only [step, make, h1, hb, hrows]
              rw [h1] at e1
              simp only [e1]
            refine ⟨b', hmk, by rw [e2]; exact h1, ?_, fun _ => e5, fun _ => e4, fun _ => e4⟩
            obtain ⟨a1, a2, a3, a4, a5, a6, a7, a8, a9⟩ := e3
            obtain ⟨c1, c2, c3, c4, c5, c6, c7, c8, c9⟩ := h2
            exact ⟨a1.trans c1, a2.trans c2, a3.trans c3, a4.trans c4, a5.trans c5, a6.trans c6, a7.trans c7, a8.trans c8, a9.trans c9⟩
      obtain ⟨b', g1, g2, g3, g4, g5, g6⟩ := hstep
      obtain ⟨b'', k1, k2, k3, k4, k5, k6⟩ := ih (fun c hc' => hc c (by simp [hc'])) b' g2 g3 g4
      refine ⟨b'', by simp [run, g1, k1], k2, k3, k4, fun h => k5 (g5 h), ?_⟩
      rintro ⟨e, np, T, hmem, hlen⟩
      rcases List.mem_cons.1 hmem with h | h
      · exact k5 (g6 ⟨e, np, T, h, hlen⟩)
      · exact k6 ⟨e, np, T, h, hlen⟩
  obtain ⟨b, k1, k2, k3, k4, -, k6⟩ := key cs hcs b₀ rfl ⟨rfl, rfl, rfl, rfl, rfl, rfl, rfl, rfl, rfl⟩ (by
    intro h
    rw [h₀] at h
    simp [create] at h)
  exact ⟨b, k1, k2, k3, k4, k6⟩

/-- The compiled construction of the states with `k` particles on `L` sites without symmetries, by one thread. -/
def buildHalf (L k : ℕ) : ℕ → Core → ℕ → Built := fun _ _ mem =>
  makeBasisPcon (fun s _ => nextStatePcon 32 s) Spec.sortDesc (fun _ => some 1) 0 (L.choose k) mem (s0Pcon k) 1 []

/-- The logarithm of base_general.py:822 for two states per site. -/
def halfLog (n : ℕ) : ℤ := (Nat.log2 (n / 2 + 1) : ℕ)

/-- Four spins, two up: made, pickled, given other prefixes, made again. -/
example : ((run (buildHalf 4 2) halfLog (create .spin 32 4 2 [] [] [] false .exact 6)
    [.blocks (some 2), .make none none 1, .pickle, .blocks (some 3), .make (some 50) (some 0) 2, .pickle]).map fun b =>
      (b.attrs.rows.map (·.1), b.attrs.np, lookup b.attrs 9, lookup b.attrs 7)) = some ([12, 10, 9, 6, 5, 3], 0, some 2, some (-1)) := by
  decide +kernel

/-- A block without states (two sites, none up, odd parity) that is made and then given prefixes reads the first state of an empty array; the default
keeps away from it. -/
theorem C108_fails_empty : ∃ (build : ℕ → Core → ℕ → Built) (b₀ : Basis), b₀ = create .spin 32 2 2 [[1, 0]] [2] [1] false .exact 0 ∧
    (∀ T core mem, 0 < mem → build T core mem = .ok []) ∧
    (run build halfLog b₀ [.make none none 1]).map (fun b => (b.attrs.rows, b.attrs.np)) = some ([], 0) ∧
    run build halfLog b₀ [.make none none 1, .blocks (some 1)] = none :=
  ⟨fun _ _ mem => makeBasisPcon (fun s _ => nextStatePcon 32 s) Spec.sortDesc (fun _ => some 0) 1 1 mem 0 1 [], _, rfl,
    fun _ _ mem h => by
      show makeBasisPcon _ _ _ 1 1 mem 0 1 [] = _
      unfold makeBasisPcon
      rw [if_neg (by omega)]
      unfold makeBasisPconSequential
      rw [sequentialLoop, if_neg (by simp; omega)]
      simp [keep, sequentialLoop], by decide +kernel, by decide +kernel⟩

/-- A block with 1000 states or more, found before the last candidate, can be made once with room to spare but not a second time: the second call
allocates exactly the size of the block, which the compiled code with one thread takes for too little (C15), and raises. -/
theorem C108_again (w : ℕ) (check : Check) (nt MAX : ℕ) (hM : MAX ≤ 2 ^ w) (hpos : 0 < MAX) (rows : List (ℕ × ℤ))
    (hrows : rows = (Spec.kept check (List.range MAX)).reverse) (hbig : 1000 ≤ rows.length)
    (hlast : (Spec.kept check (List.range (MAX - 1))).length = rows.length)
    (build : ℕ → Core → ℕ → Built) (hb : ∀ core mem, build 1 core mem = makeBasis w Spec.sortDesc check nt MAX mem 1 []) (guess : ℕ → ℤ) (b b' : Basis)
    (e : Option ℕ) (np np' : Option ℤ) (he : rows.length < memory b.attrs e) (hone : b.attrs.number ≠ .several) (h : make (build 1) guess b e np = .ok b') :
    b'.attrs.rows = rows ∧ make (build 1) guess b' none np' = .error .value := by
  have hshort : ∀ mem, makeBasis w Spec.sortDesc check nt MAX mem 1 [] = .insufficient ↔ mem ≤ rows.length := by
    intro mem
    rw [C15_sequential_shortage_iff w Spec.sortDesc check nt MAX mem hM, hlast]
    simp [hpos]
  have hval : ∀ mem, rows.length < mem → makeBasis w Spec.sortDesc check nt MAX mem 1 [] = .ok rows := by
    intro mem hm
    have h1 : ¬ makeBasis w Spec.sortDesc check nt MAX mem 1 [] = .insufficient := by rw [hshort]; omega
    unfold makeBasis at h1 ⊢
    rw [if_neg (by omega), Proof.MakeBasis.makeBasisSequential_eq w check MAX mem hM] at h1 ⊢
    by_cases hc : 0 < MAX ∧ mem ≤ (Spec.kept check (List.range MAX).dropLast).length
    · rw [if_pos hc] at h1; exact absurd rfl h1
    · rw [if_neg hc, hrows]
  unfold make at h
  rw [hb, hval _ he] at h
  simp only [if_neg hone] at h
  have hres : b'.attrs.rows = rows ∧ b'.attrs.Ns = rows.length ∧ b'.attrs.est = rows.length := by
    unfold makeBasisBlocks at h
    rw [if_neg (by simp)] at h
    simp only [] at h
    split at h
    · split at h
      · simp at h
      · simp only [Except.ok.injEq] at h; subst h; exact ⟨rfl, rfl, rfl⟩
    · simp only [Except.ok.injEq] at h; subst h; exact ⟨rfl, rfl, rfl⟩
  obtain ⟨r1, r2, r3⟩ := hres
  refine ⟨r1, ?_⟩
  unfold make
  rw [hb, (hshort _).2 (by simp only [memory, r2, r3]; omega)]

/-- `check_state` for the exchange of the first and the last of twelve sites, odd: a state with both sites alike has norm 0, a state with the first
site (the highest bit) empty is smaller than its image. -/
def checkOdd (s : ℕ) : Option ℤ := if s % 2 = s / 2048 then some 0 else if s < 2048 then none else some 2

theorem kept_odd_low : Spec.kept checkOdd (List.range 2048) = [] := by
  unfold Spec.kept
  rw [List.filterMap_eq_nil_iff]
  intro s hs
  have h := List.mem_range.1 hs
  have : s / 2048 = 0 := Nat.div_eq_of_lt h
  unfold checkOdd
  rw [this]
  by_cases h0 : s % 2 = 0
  · rw [if_pos h0]; rfl
  · rw [if_neg h0, if_pos h]; rfl

theorem kept_odd (m : ℕ) (hm : m ≤ 1024) : (Spec.kept checkOdd (List.range (2048 + 2 * m))).length = m := by
  induction m with
  | zero => rw [Nat.mul_zero, Nat.add_zero, kept_odd_low]; rfl
  | succ m ih =>
    have h1 : checkOdd (2048 + 2 * m) = some 2 := by
      unfold checkOdd
      rw [if_neg (by omega), if_neg (by omega)]
    have h2 : checkOdd (2048 + 2 * m + 1) = some 0 := by
      unfold checkOdd
      rw [if_pos (by omega)]
    have h3 : List.range (2048 + 2 * (m + 1)) = List.range (2048 + 2 * m) ++ [2048 + 2 * m, 2048 + 2 * m + 1] := by
      rw [show 2048 + 2 * (m + 1) = 2048 + 2 * m + 1 + 1 from by omega, List.range_succ, List.range_succ]
      simp
    have ih' := ih (by omega)
    unfold Spec.kept at ih' ⊢
    rw [h3, List.filterMap_append, List.length_append, ih']
    simp [h1, h2]

theorem make_large (build : Core → ℕ → Built) (b₀ : Basis)
    (h₀ : b₀ = create .spin 32 12 2 [[11, 1, 2, 3, 4, 5, 6, 7, 8, 9, 10, 0]] [2] [1] false .all 4096) (rows : List (ℕ × ℤ)) (hl : rows.length = 1024)
    (hb : build b₀.core 4096 = .ok rows) : ∃ b, make build halfLog b₀ none (some 0) = .ok b ∧ b.attrs.rows = rows ∧
      (build b₀.core 1024 = .insufficient → make build halfLog b none none = .error .value) := by
  refine ⟨{ b₀ with attrs := { b₀.attrs with rows := rows, Ns := 1024, est := 1024, made := true, np := 0, blocks := [] } }, ?_, rfl, ?_⟩
  · have hm : memory b₀.attrs none = 4096 := by rw [h₀]; rfl
    have hn : b₀.attrs.number ≠ .several := by rw [h₀]; decide
    unfold make
    rw [hm, hb]
    simp only [if_neg hn]
    simp [makeBasisBlocks, prefixLength, hl]
  · intro h
    have hm : memory { b₀.attrs with rows := rows, Ns := 1024, est := 1024, made := true, np := 0, blocks := [] } none = 1024 := by simp [memory]
    unfold make
    rw [hm, h]

/-- Twelve spins, odd under the exchange of the first and the last site: 1024 states.  The basis is made with an estimate of 4096 states, twice
the number of states over the period as base_hcb.py:47 has it; calling `make()` on it again raises "estimate for size of reduced Hilbert-space is too
low". -/
theorem C108_fails_again : ∃ (build : ℕ → Core → ℕ → Built) (b₀ b : Basis), b₀ = create .spin 32 12 2 [[11, 1, 2, 3, 4, 5, 6, 7, 8, 9, 10, 0]] [2] [1] false .all 4096 ∧
    (∀ core mem, build 1 core mem = makeBasis 32 Spec.sortDesc checkOdd 1 4096 mem 1 []) ∧
    make (build 1) halfLog b₀ none (some 0) = .ok b ∧ b.attrs.rows.length = 1024 ∧
    make (build 1) halfLog b none none = .error .value := by
  have h1 : (Spec.kept checkOdd (List.range 4096)).length = 1024 := kept_odd 1024 (le_refl _)
  have h2 : (Spec.kept checkOdd (List.range (4096 - 1))).length = 1024 := by
    have h := kept_odd 1023 (by omega)
    have e : checkOdd 4094 = some 2 := by decide +kernel
    rw [show 4096 - 1 = (2048 + 2 * 1023) + 1 from rfl, List.range_succ]
    unfold Spec.kept at h ⊢
    rw [List.filterMap_append, List.length_append, h]
    simp [e]
  have hb : makeBasis 32 Spec.sortDesc checkOdd 1 4096 4096 1 [] = .ok (Spec.kept checkOdd (List.range 4096)).reverse := by
    unfold makeBasis
    rw [if_neg (by omega), Proof.MakeBasis.makeBasisSequential_eq 32 checkOdd 4096 4096 (by norm_num), if_neg]
    rw [show (List.range 4096).dropLast = List.range (4096 - 1) from by rw [show (4096 : ℕ) = 4095 + 1 from rfl, List.range_succ]; simp, h2]
    omega
  have hb' : makeBasis 32 Spec.sortDesc checkOdd 1 4096 1024 1 [] = .insufficient := by
    rw [C15_sequential_shortage_iff 32 Spec.sortDesc checkOdd 1 4096 1024 (by norm_num), h2]
    omega
  obtain ⟨build, hbuild⟩ : ∃ build : ℕ → Core → ℕ → Built, ∀ T core mem, build T core mem = makeBasis 32 Spec.sortDesc checkOdd 1 4096 mem 1 [] :=
    ⟨_, fun _ _ _ => rfl⟩
  obtain ⟨rows, hrows⟩ : ∃ rows, rows = (Spec.kept checkOdd (List.range 4096)).reverse := ⟨_, rfl⟩
  have hl : rows.length = 1024 := by rw [hrows, List.length_reverse, h1]
  rw [← hrows, ← hbuild 1 (create .spin 32 12 2 [[11, 1, 2, 3, 4, 5, 6, 7, 8, 9, 10, 0]] [2] [1] false .all 4096).core] at hb
  obtain ⟨b, e1, e2, e3⟩ := make_large (build 1) _ rfl rows hl hb
  refine ⟨build, _, b, rfl, fun _ _ => hbuild _ _ _, e1, e2 ▸ hl, e3 ?_⟩
  rw [hbuild, hb']

/-- The compiled construction with a user's `next_state` that goes down: 4, 2, 1; the loop turns the list around. -/
def buildDown : Core → ℕ → Built := fun _ mem => makeBasisPcon (fun s _ => s / 2) Spec.sortDesc (fun _ => some 1) 0 3 mem 4 1 []

/-- Three sites with one particle. -/
def userStart : Basis := create .hcb 32 3 2 [] [] [] false .exact 3

/-- A user basis whose states come in any order is sorted by the constructor, but the table of prefixes was computed before: the state 4 is in the
basis and is not found, so operators lose matrix elements. -/
theorem C108_fails_user : (userCreate buildDown halfLog userStart true).toOption.map (fun b => (b.attrs.rows.map (·.1), b.attrs.np, lookup b.attrs 4)) =
    some ([4, 2, 1], 1, some (-1)) := by
  decide +kernel

/-- A user basis constructed with `make_basis=False` and made later is never sorted: its states are in increasing order, and the state 1 is in the
basis and is not found. -/
theorem C108_fails_user_late :
    (userCreate buildDown halfLog userStart false).toOption.bind (fun b => (make buildDown halfLog b none none).toOption.map
      fun b => (b.attrs.rows.map (·.1), lookup b.attrs 1)) = some ([1, 2, 4], some (-1)) := by
  decide +kernel

/-- A user basis whose states the compiled code returns in decreasing order is left as `make` leaves it, so `C108_history_partial` holds for it.
Missing: other orders (`C108_fails_user`). -/
theorem C108_user_partial (build : Core → ℕ → Built) (guess : ℕ → ℤ) (b b' : Basis) (hm : make build guess b none none = .ok b')
    (hdec : (b'.attrs.rows.map (·.1)).Pairwise (· > ·)) : userCreate build guess b true = .ok b' := by
  have hs : ∀ l : List ℕ, l.Pairwise (· > ·) → isSortedDescending l = true := by
    intro l
    induction l with
    | nil => intro _; rfl
    | cons a l ih =>
      intro h
      cases l with
      | nil => rfl
      | cons c l =>
        have := List.rel_of_pairwise_cons h (List.mem_cons_self ..)
        rw [isSortedDescending, if_neg (by omega)]
        exact ih (List.Pairwise.of_cons h)
  simp [userCreate, hm, Except.map, hs _ hdec]

example : (make (buildHalf 4 2 1) halfLog (create .hcb 32 4 2 [] [] [] false .exact 6) none none).toOption.map
    (fun b => b.attrs.rows.map (·.1)) = some [12, 10, 9, 6, 5, 3] := by
  decide +kernel

end Props
