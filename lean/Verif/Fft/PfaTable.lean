import Mathlib.Data.Nat.GCD.Basic
import Mathlib.Data.Nat.GCD.BigOperators
import Mathlib.Data.List.Pairwise
import Mathlib.Tactic.IntervalCases

/-!
# Table of prime-factor FFT lengths (FFTlib/pfaconst.h, FFTlib/pfafft.c)
-/

namespace Verif.Fft

/-- The table `nctab` of FFTlib/pfaconst.h:51-301: length and cost; the cost (a decimal fraction of
a second in the source) is given in microseconds. -/
def nctab : List (Nat × Nat) :=
  [
   (1,52), (2,61), (3,30), (4,53), (5,66), (6,67), (7,71), (8,62), (9,79), (10,80), (11,52),
   (12,69), (13,103), (14,123), (15,50), (16,86), (18,108), (20,101), (21,98), (22,135), (24,90),
   (26,165), (28,84), (30,132), (33,158), (35,138), (36,147), (39,207), (40,156), (42,158),
   (44,176), (45,171), (48,185), (52,227), (55,242), (56,194), (60,215), (63,233), (65,288),
   (66,271), (70,248), (72,247), (77,285), (78,395), (80,285), (84,209), (88,332), (90,321),
   (91,372), (99,400), (104,391), (105,358), (110,440), (112,367), (117,494), (120,413),
   (126,424), (130,549), (132,480), (140,450), (143,637), (144,497), (154,590), (156,626),
   (165,654), (168,536), (176,656), (180,611), (182,730), (195,839), (198,786), (208,835),
   (210,751), (220,826), (231,926), (234,991), (240,852), (252,820), (260,1053), (264,987),
   (273,1152), (280,952), (286,1299), (308,1155), (312,1270), (315,1156), (330,1397), (336,1173),
   (360,1259), (364,1471), (385,1569), (390,1767), (396,1552), (420,1516), (429,2015), (440,1748),
   (455,1988), (462,1921), (468,1956), (495,2106), (504,1769), (520,2196), (528,2127), (546,2454),
   (560,2099), (572,2632), (585,2665), (616,2397), (624,2711), (630,2496), (660,2812), (693,2949),
   (715,3571), (720,2783), (728,3060), (770,3392), (780,3553), (792,3198), (819,3726), (840,3234),
   (858,4354), (880,3800), (910,4304), (924,3975), (936,4123), (990,4517), (1001,5066),
   (1008,3902), (1040,4785), (1092,5017), (1144,5599), (1155,5380), (1170,5730), (1232,5323),
   (1260,5112), (1287,6658), (1320,5974), (1365,6781), (1386,6413), (1430,7622), (1456,6679),
   (1540,7032), (1560,7538), (1584,7126), (1638,7979), (1680,7225), (1716,8961), (1820,8818),
   (1848,8427), (1872,9004), (1980,9398), (2002,10830), (2145,12010), (2184,10586), (2288,12058),
   (2310,11673), (2340,11700), (2520,11062), (2574,14313), (2640,13021), (2730,14606),
   (2772,13216), (2860,15789), (3003,16988), (3080,14911), (3120,16393), (3276,16741),
   (3432,18821), (3465,18138), (3640,18892), (3696,18634), (3960,20216), (4004,22455),
   (4095,22523), (4290,26087), (4368,23474), (4620,24590), (4680,25641), (5005,30303),
   (5040,25253), (5148,30364), (5460,31250), (5544,29412), (5720,34404), (6006,37500),
   (6160,34091), (6435,40214), (6552,37221), (6864,42735), (6930,40214), (7280,42980),
   (7920,45872), (8008,49505), (8190,49834), (8580,55762), (9009,57034), (9240,54945),
   (9360,56818), (10010,66667), (10296,65502), (10920,68182), (11088,65217), (11440,75000),
   (12012,78534), (12870,87719), (13104,81081), (13860,84270), (15015,102740), (16016,106383),
   (16380,105634), (17160,119048), (18018,123967), (18480,119048), (20020,137615), (20592,140187),
   (21840,154639), (24024,168539), (25740,180723), (27720,180723), (30030,220588), (32760,241935),
   (34320,254237), (36036,254237), (40040,288462), (45045,357143), (48048,357143), (51480,384615),
   (55440,384615), (60060,454545), (65520,517241), (72072,576923), (80080,625000), (90090,833333),
   (102960,789474), (120120,1153846), (144144,1153846), (180180,1875000), (240240,2500000),
   (360360,3750000), (720720,7500000)]

/-- `#define NTAB 240`, FFTlib/pfaconst.h:52. -/
def NTAB : Nat := 240

/-- `nctab[i].n` -/
def tabN (i : Nat) : Nat := (nctab.getD i (0,0)).1
/-- `nctab[i].c` -/
def tabC (i : Nat) : Nat := (nctab.getD i (0,0)).2

/-- The scan of `npfa`, FFTlib/pfafft.c:23: `for (i=0; i<NTAB-1 && nctab[i].n<nmin; ++i);`. -/
def npfaIdx (nmin : Int) (i : Nat) : Nat :=
  if i < NTAB - 1 ∧ (tabN i : Int) < nmin then npfaIdx nmin (i+1) else i
termination_by NTAB - 1 - i

/-- `npfa`, FFTlib/pfafft.c:19-25. -/
def npfa (nmin : Int) : Nat := tabN (npfaIdx nmin 0)

/-- `npfar`, FFTlib/pfafft.c:37-41; C division truncates. -/
def npfar (nmin : Int) : Nat := 2 * npfa (Int.tdiv (nmin + 1) 2)

/-- Second scan of `npfao`, FFTlib/pfafft.c:32-33:
`for (j=i+1; j<NTAB-1 && nctab[j].n<=nmax; ++j) if (nctab[j].c<nctab[i].c) i = j;`. -/
def npfaoLoop (nmax : Int) (i j : Nat) : Nat :=
  if j < NTAB - 1 ∧ (tabN j : Int) ≤ nmax then
    npfaoLoop nmax (if tabC j < tabC i then j else i) (j+1)
  else i
termination_by NTAB - 1 - j

/-- `npfao`, FFTlib/pfafft.c:27-35. -/
def npfao (nmin nmax : Int) : Nat :=
  tabN (npfaoLoop nmax (npfaIdx nmin 0) (npfaIdx nmin 0 + 1))

/-- `npfaro`, FFTlib/pfafft.c:43-47. -/
def npfaro (nmin nmax : Int) : Nat := 2 * npfao (Int.tdiv (nmin + 1) 2) (Int.tdiv (nmax + 1) 2)

/-! ### Specification -/

/-- The factors for which FFTlib/pfafft.c has a butterfly (FFTlib/pfafft.c:52). -/
def pfaFactors : List Nat := [2, 3, 4, 5, 7, 8, 9, 11, 13, 16]

/-- Documented meaning of a valid prime-factor length: a product of mutually prime factors taken from
2,3,4,5,7,8,9,11,13,16. -/
def ValidLen (n : Nat) : Prop :=
  ∃ l : List Nat, (∀ f ∈ l, f ∈ pfaFactors) ∧ l.Pairwise Nat.Coprime ∧ l.prod = n

/-! ### Facts about the table -/

theorem nctab_length : nctab.length = NTAB := by decide +kernel

/-- The factors of a table entry. -/
def splitLen (n : Nat) : List Nat :=
  ([16, 9, 5, 7, 11, 13].map (Nat.gcd n)).filter (· ≠ 1)

theorem table_valid_aux : ∀ e ∈ nctab, (∀ f ∈ splitLen e.1, f ∈ pfaFactors) ∧
    (splitLen e.1).Pairwise (fun a b => Nat.gcd a b = 1) ∧ (splitLen e.1).prod = e.1 := by
  decide +kernel

theorem table_strict_aux : ∀ i ∈ List.range 239, tabN i < tabN (i+1) := by decide +kernel

theorem table_complete_aux : ∀ a ∈ [1,2,4,8,16], ∀ b ∈ [1,3,9], ∀ c ∈ [1,5], ∀ d ∈ [1,7],
    ∀ e ∈ [1,11], ∀ f ∈ [1,13], a*b*c*d*e*f ∈ nctab.map Prod.fst := by decide +kernel

theorem tabN_strict {i : Nat} (h : i + 1 < NTAB) : tabN i < tabN (i+1) :=
  table_strict_aux i (List.mem_range.mpr (by unfold NTAB at h; omega))

theorem tabN_mono {i j : Nat} (h : i < j) (hj : j < NTAB) : tabN i < tabN j := by
  induction j with
  | zero => omega
  | succ j ih =>
    rcases Nat.lt_succ_iff_lt_or_eq.mp h with h1 | h1
    · exact lt_trans (ih h1 (by omega)) (tabN_strict hj)
    · subst h1; exact tabN_strict hj

theorem tabN_mem {i : Nat} (h : i < NTAB) : ∃ e ∈ nctab, e.1 = tabN i := by
  have hl : i < nctab.length := by rw [nctab_length]; exact h
  refine ⟨nctab[i], List.getElem_mem hl, ?_⟩
  unfold tabN
  simp [List.getD, hl]

theorem mem_tabN {n : Nat} (h : n ∈ nctab.map Prod.fst) : ∃ i, i < NTAB ∧ tabN i = n := by
  obtain ⟨e, he, rfl⟩ := List.mem_map.mp h
  obtain ⟨i, hi, hh⟩ := List.mem_iff_getElem.mp he
  refine ⟨i, by rw [← nctab_length]; exact hi, ?_⟩
  unfold tabN
  simp [List.getD, hi, hh]

theorem tabN_valid {i : Nat} (h : i < NTAB) : ValidLen (tabN i) := by
  obtain ⟨e, he, hh⟩ := tabN_mem h
  obtain ⟨h1, h2, h3⟩ := table_valid_aux e he
  exact ⟨splitLen e.1, h1, h2.imp (fun h => Nat.coprime_iff_gcd_eq_one.mpr h), by rw [h3, hh]⟩

theorem prod_dvd_of_pairwise {N : Nat} (l : List Nat) (h : ∀ f ∈ l, f ∣ N)
    (hp : l.Pairwise Nat.Coprime) : l.prod ∣ N := by
  induction l with
  | nil => simp
  | cons a l ih =>
    rw [List.pairwise_cons] at hp
    rw [List.prod_cons]
    refine Nat.Coprime.mul_dvd_of_dvd_of_dvd ?_ (h a List.mem_cons_self)
      (ih (fun f hf => h f (List.mem_cons_of_mem _ hf)) hp.2)
    exact Nat.coprime_list_prod_right_iff.mpr hp.1

theorem dvd_small {p n : Nat} (hp : 0 < p) (h : n ∣ p) : n ∈ (List.range (p+1)).filter (· ∣ p) := by
  have := Nat.le_of_dvd hp h
  simp [h]; omega

/-- Every valid length divides 720720 and therefore is in the table. -/
theorem valid_in_table {n : Nat} (h : ValidLen n) : ∃ i, i < NTAB ∧ tabN i = n := by
  obtain ⟨l, h1, h2, rfl⟩ := h
  have hd : l.prod ∣ 16 * 9 * 5 * 7 * 11 * 13 := by
    apply prod_dvd_of_pairwise l _ h2
    intro f hf
    have := h1 f hf
    revert this f
    unfold pfaFactors
    intro f _ hm
    simp only [List.mem_cons, List.not_mem_nil, or_false] at hm
    rcases hm with rfl|rfl|rfl|rfl|rfl|rfl|rfl|rfl|rfl|rfl <;> decide
  obtain ⟨x5, f, hx5, hf, e5⟩ := (Nat.dvd_mul).mp hd
  obtain ⟨x4, e, hx4, he, e4⟩ := (Nat.dvd_mul).mp hx5
  obtain ⟨x3, d, hx3, hd', e3⟩ := (Nat.dvd_mul).mp hx4
  obtain ⟨x2, c, hx2, hc, e2⟩ := (Nat.dvd_mul).mp hx3
  obtain ⟨a, b, ha, hb, e1⟩ := (Nat.dvd_mul).mp hx2
  apply mem_tabN
  rw [← e5, ← e4, ← e3, ← e2, ← e1]
  apply table_complete_aux
  · exact dvd_small (p := 16) (by decide) ha
  · exact dvd_small (p := 9) (by decide) hb
  · exact dvd_small (p := 5) (by decide) hc
  · exact dvd_small (p := 7) (by decide) hd'
  · exact dvd_small (p := 11) (by decide) he
  · exact dvd_small (p := 13) (by decide) hf

/-! ### The scan -/

theorem npfaIdx_spec (nmin : Int) (i : Nat) (hi : i < NTAB) :
    i ≤ npfaIdx nmin i ∧ npfaIdx nmin i < NTAB ∧
    (∀ j, i ≤ j → j < npfaIdx nmin i → (tabN j : Int) < nmin) ∧
    (npfaIdx nmin i < NTAB - 1 → nmin ≤ tabN (npfaIdx nmin i)) := by
  induction i using npfaIdx.induct nmin with
  | case1 i h ih =>
    rw [npfaIdx, if_pos h]
    obtain ⟨a, b, c, d⟩ := ih (by omega)
    refine ⟨by omega, b, ?_, d⟩
    intro j h1 h2
    rcases Nat.eq_or_lt_of_le h1 with rfl | h3
    · exact h.2
    · exact c j h3 h2
  | case2 i h =>
    rw [npfaIdx, if_neg h]
    refine ⟨le_refl _, hi, fun j h1 h2 => by omega, fun h3 => ?_⟩
    by_contra hc
    exact h ⟨h3, by omega⟩

theorem tab_last : tabN (NTAB - 1) = 720720 := by decide +kernel

theorem npfa_valid (n : Int) : ValidLen (npfa n) :=
  tabN_valid (npfaIdx_spec n 0 (by decide)).2.1

/-- `npfa n ≥ n` up to the table limit. -/
theorem npfa_ge (n : Int) (h : n ≤ 720720) : n ≤ npfa n := by
  obtain ⟨_, b, c, d⟩ := npfaIdx_spec n 0 (by decide)
  unfold npfa
  by_cases h1 : npfaIdx n 0 < NTAB - 1
  · exact d h1
  · have : npfaIdx n 0 = NTAB - 1 := by omega
    rw [this, tab_last]; exact_mod_cast h

theorem npfa_least_aux (n : Int) (m : Nat) (hv : ValidLen m) (hm : n ≤ m) : npfa n ≤ m := by
  obtain ⟨_, b, c, d⟩ := npfaIdx_spec n 0 (by decide)
  obtain ⟨k, hk, rfl⟩ := valid_in_table hv
  unfold npfa
  rcases Nat.lt_trichotomy (npfaIdx n 0) k with h | h | h
  · exact le_of_lt (tabN_mono h hk)
  · rw [h]
  · have := c k (Nat.zero_le _) h
    omega

theorem npfa_over (n : Int) (h : 720720 ≤ n) : npfa n = 720720 := by
  obtain ⟨_, b, c, d⟩ := npfaIdx_spec n 0 (by decide)
  unfold npfa
  by_cases h1 : npfaIdx n 0 < NTAB - 1
  · have h2 := d h1
    have h3 := tabN_mono h1 (by decide)
    rw [tab_last] at h3
    omega
  · have : npfaIdx n 0 = NTAB - 1 := by omega
    rw [this, tab_last]

/-- **C06.** For every request `n` up to the largest tabulated length (720720) `npfa n` is the least
valid prime-factor length that is at least `n`; the valid lengths are exactly the products of
mutually prime factors from {2,3,4,5,7,8,9,11,13,16}. -/
theorem npfa_least (n : Int) (h : n ≤ 720720) :
    IsLeast {m : Nat | ValidLen m ∧ n ≤ m} (npfa n) :=
  ⟨⟨npfa_valid n, npfa_ge n h⟩, fun m hm => npfa_least_aux n m hm.1 hm.2⟩

/-- A concrete case: 17 is not a valid length, the next one is 18. -/
example : npfa 17 = 18 ∧ ValidLen 18 ∧ ¬ ValidLen 17 := by
  have h : npfa 17 = 18 := by decide +kernel
  refine ⟨h, ⟨[2,9], by decide, by decide, by decide⟩, fun hv => ?_⟩
  have := npfa_least_aux 17 17 hv (by decide)
  omega

/-- **C06** for the real transform: `npfar n` is the least even length whose half is a valid
complex length, among those at least `n`, for every `n` up to 1441440. -/
theorem npfar_least (n : Int) (h0 : 0 ≤ n) (h : n ≤ 1441440) :
    IsLeast {m : Nat | (∃ k, ValidLen k ∧ m = 2 * k) ∧ n ≤ m} (npfar n) := by
  have hd : Int.tdiv (n+1) 2 = (n+1)/2 := Int.tdiv_eq_ediv_of_nonneg (by omega)
  unfold npfar
  rw [hd]
  refine ⟨⟨⟨_, npfa_valid _, rfl⟩, ?_⟩, ?_⟩
  · have := npfa_ge ((n+1)/2) (by omega)
    push_cast
    omega
  · rintro m ⟨⟨k, hk, rfl⟩, h2⟩
    have := npfa_least_aux ((n+1)/2) k hk (by push_cast at h2; omega)
    omega

/-- **C06**: monotone (for all requests, also beyond the table). -/
theorem npfa_mono {m n : Int} (h : m ≤ n) : npfa m ≤ npfa n := by
  by_cases hn : n ≤ 720720
  · exact npfa_least_aux m _ (npfa_valid n) (by have := npfa_ge n hn; omega)
  · rw [npfa_over n (by omega)]
    by_cases hm : m ≤ 720720
    · refine npfa_least_aux m _ ?_ (by exact_mod_cast hm)
      rw [← npfa_over 720720 (le_refl _)]
      exact npfa_valid _
    · rw [npfa_over m (by omega)]

/-- **C06**: idempotent; a valid length is returned as it is. -/
theorem npfa_idem (n : Int) : npfa (npfa n) = npfa n := by
  apply le_antisymm
  · exact npfa_least_aux _ _ (npfa_valid n) (le_refl _)
  · have : (npfa n : Int) ≤ 720720 := by
      have := npfa_mono (m := n) (n := max n 720720) (le_max_left _ _)
      rw [npfa_over _ (le_max_right _ _)] at this
      exact_mod_cast this
    have := npfa_ge _ this
    exact_mod_cast this

/-- Beyond the table the request is silently not met. -/
theorem npfa_too_short (n : Int) (h : 720720 < n) : (npfa n : Int) < n := by
  rw [npfa_over n (by omega)]; exact_mod_cast h

/-! ### npfao: the cheapest length in a range -/

theorem npfaoLoop_spec (nmax : Int) (i j : Nat) (hij : i < j) (hj : j ≤ NTAB) :
    (npfaoLoop nmax i j = i ∨ (j ≤ npfaoLoop nmax i j ∧ npfaoLoop nmax i j < NTAB - 1 ∧
      (tabN (npfaoLoop nmax i j) : Int) ≤ nmax)) ∧
    tabC (npfaoLoop nmax i j) ≤ tabC i ∧
    ∀ k, j ≤ k → k < NTAB - 1 → (tabN k : Int) ≤ nmax → tabC (npfaoLoop nmax i j) ≤ tabC k := by
  induction i, j using npfaoLoop.induct nmax with
  | case1 i j h ih =>
    rw [npfaoLoop, if_pos h]
    simp only [dite_eq_ite] at ih
    obtain ⟨a, b, c⟩ := ih (by split <;> omega) (by omega)
    refine ⟨?_, ?_, ?_⟩
    · rcases a with a | a
      · rw [a]
        split
        · right; exact ⟨le_refl _, h.1, h.2⟩
        · left; rfl
      · right; exact ⟨by omega, a.2.1, a.2.2⟩
    · refine le_trans b ?_
      split <;> omega
    · intro k h1 h2 h3
      rcases Nat.eq_or_lt_of_le h1 with rfl | h4
      · refine le_trans b ?_
        split <;> omega
      · exact c k h4 h2 h3
  | case2 i j h =>
    rw [npfaoLoop, if_neg h]
    refine ⟨Or.inl rfl, le_refl _, ?_⟩
    intro k h1 h2 h3
    exfalso
    apply h
    refine ⟨by omega, ?_⟩
    rcases Nat.eq_or_lt_of_le h1 with rfl | h4
    · exact h3
    · have := tabN_mono h4 (by omega); omega

/-- The cost the table assigns to a length. -/
def costOf (n : Nat) : Option Nat := (nctab.find? (fun e => e.1 = n)).map Prod.snd

/-- `npfao nmin nmax` is a valid length, at least `nmin`, at most `nmax` (or the smallest one that
is at least `nmin`), and none of the valid lengths in the range — except possibly the last table
entry 720720, which the scan skips — is cheaper. -/
theorem npfao_cheapest (nmin nmax : Int) (h : nmin ≤ 720720) :
    ∃ i, i < NTAB ∧ npfao nmin nmax = tabN i ∧ ValidLen (tabN i) ∧ nmin ≤ tabN i ∧
      ((tabN i : Int) ≤ nmax ∨ tabN i = npfa nmin) ∧
      ∀ k, k < NTAB - 1 → nmin ≤ tabN k → (tabN k : Int) ≤ nmax → tabC i ≤ tabC k := by
  obtain ⟨_, b, c, d⟩ := npfaIdx_spec nmin 0 (by decide)
  obtain ⟨p, q, r⟩ := npfaoLoop_spec nmax (npfaIdx nmin 0) (npfaIdx nmin 0 + 1) (by omega) (by omega)
  have hge := npfa_ge nmin h
  refine ⟨npfaoLoop nmax (npfaIdx nmin 0) (npfaIdx nmin 0 + 1), ?_, rfl, ?_, ?_, ?_, ?_⟩
  · rcases p with p | p
    · rw [p]; exact b
    · omega
  · rcases p with p | p
    · rw [p]; exact tabN_valid b
    · exact tabN_valid (by omega)
  · rcases p with p | p
    · rw [p]; exact hge
    · have := tabN_mono (i := npfaIdx nmin 0) p.1 (by omega)
      unfold npfa at hge; omega
  · rcases p with p | p
    · right; rw [p]; rfl
    · left; exact p.2.2
  · intro k hk h1 h2
    rcases Nat.lt_trichotomy (npfaIdx nmin 0) k with h3 | h3 | h3
    · exact r k h3 hk h2
    · rw [← h3]; exact q
    · have := c k (Nat.zero_le _) h3; omega

example : npfao 17 30 = 28 := by decide +kernel

end Verif.Fft
