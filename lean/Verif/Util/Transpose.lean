import Verif.Base.Write
import Verif.Base.Par
import Mathlib.Tactic.Ring
import Mathlib.Tactic.Linarith
import Mathlib.Algebra.Order.Ring.Int
import Mathlib.Algebra.Order.Ring.Nat

/-!
# C47: blocked transposition (fdacrtmc/transpose.h)
-/

namespace Verif.Util
open Verif
variable {α : Type}

/-- `transpose_scalar_block(&A[a0],&B[b0],lda,ldb,block_size)`, transpose.h:1-10, executed sequentially. -/
def transposeScalarBlock (A : Buf α) (a0 b0 : Int) (lda ldb bs : Nat) (B : Buf α) : Option (Buf α) :=
  forNM bs (fun i B => forNM bs (fun j B =>
    (A.rd (a0 + ((i:Int) * lda + j))).bind fun v => B.wr (b0 + ((j:Int) * ldb + i)) v) B) B

/-- Number of turns of `for(i=0;i<n;i+=bs)`. -/
def nblocks (n bs : Nat) : Nat := (n + bs - 1) / bs

/-- `transpose_block`, transpose.h:12-21, executed sequentially (`bs > 0`). -/
def transposeBlock (A : Buf α) (n m lda ldb bs : Nat) (B : Buf α) : Option (Buf α) :=
  forNM (nblocks n bs) (fun bi B => forNM (nblocks m bs) (fun bj B =>
    transposeScalarBlock A ((bi:Int) * bs * lda + (bj:Int) * bs) ((bj:Int) * bs * ldb + (bi:Int) * bs) lda ldb bs B) B) B

/-- `B` is the transpose of the `n` by `m` matrix `A`. -/
def IsTranspose (A B : Buf α) (n m lda ldb : Nat) : Prop :=
  ∀ i j : Nat, i < n → j < m → B.val ((j:Int) * ldb + i) = A.val ((i:Int) * lda + j)

/-- element `(i,j)` position of `B` determines `i` and `j` -/
theorem pos_inj {ldb : Nat} {i i' j j' : Nat} (hi : i < ldb) (hi' : i' < ldb)
    (h : (j:Int) * ldb + i = (j':Int) * ldb + i') : j = j' ∧ i = i' := by
  have h' : j * ldb + i = j' * ldb + i' := by exact_mod_cast h
  have hp : 0 < ldb := by omega
  have d1 : (j * ldb + i) / ldb = j := by
    rw [Nat.add_comm, Nat.add_mul_div_right _ _ hp, Nat.div_eq_of_lt hi, Nat.zero_add]
  have d2 : (j' * ldb + i') / ldb = j' := by
    rw [Nat.add_comm, Nat.add_mul_div_right _ _ hp, Nat.div_eq_of_lt hi', Nat.zero_add]
  rw [h', d2] at d1
  subst d1
  exact ⟨rfl, by omega⟩

/-- Buffers large enough for the matrices. -/
structure Fits (A B : Buf α) (n m lda ldb : Nat) : Prop where
  widthA : m ≤ lda
  widthB : n ≤ ldb
  okA : ∀ i j : Nat, i < n → j < m → A.ok ((i:Int) * lda + j)
  okB : ∀ i j : Nat, i < n → j < m → B.ok ((j:Int) * ldb + i)

/-- Invariant: exactly the elements satisfying `D` have been transposed. -/
structure TrInv (A B0 : Buf α) (n m lda ldb : Nat) (D : Nat → Nat → Prop) (B : Buf α) : Prop where
  size : B.size = B0.size
  done : ∀ i j, i < n → j < m → D i j → B.val ((j:Int) * ldb + i) = A.val ((i:Int) * lda + j)
  rest : ∀ x, (∀ i j : Nat, i < n → j < m → D i j → x ≠ (j:Int) * ldb + i) → B.val x = B0.val x

theorem TrInv.mono {A B0 : Buf α} {n m lda ldb : Nat} {D D' : Nat → Nat → Prop} {B : Buf α}
    (h : TrInv A B0 n m lda ldb D B) (hD : ∀ i j, i < n → j < m → (D i j ↔ D' i j)) :
    TrInv A B0 n m lda ldb D' B :=
  ⟨h.size, fun i j hi hj hd => h.done i j hi hj ((hD i j hi hj).mpr hd),
   fun x hx => h.rest x (fun i j hi hj hd => hx i j hi hj ((hD i j hi hj).mp hd))⟩

/-- One element. -/
theorem TrInv.put {A B0 : Buf α} {n m lda ldb : Nat} {D : Nat → Nat → Prop} {B : Buf α}
    (hf : Fits A B0 n m lda ldb) (h : TrInv A B0 n m lda ldb D B) (i j : Nat) (hi : i < n) (hj : j < m) :
    ∃ B', ((A.rd ((i:Int) * lda + j)).bind fun v => B.wr ((j:Int) * ldb + i) v) = some B' ∧
      TrInv A B0 n m lda ldb (fun i' j' => D i' j' ∨ (i' = i ∧ j' = j)) B' := by
  have hok : B.ok ((j:Int) * ldb + i) := by
    have := hf.okB i j hi hj
    unfold Buf.ok at this ⊢
    rw [h.size]; exact this
  rw [Buf.rd_ok (hf.okA i j hi hj)]
  simp only [Option.bind_some]
  rw [Buf.wr_ok hok]
  refine ⟨_, rfl, h.size, ?_, ?_⟩
  · intro i' j' hi' hj' hd
    dsimp only
    by_cases hc : (j':Int) * ldb + i' = (j:Int) * ldb + i
    · obtain ⟨e1, e2⟩ := pos_inj (lt_of_lt_of_le hi' hf.widthB) (lt_of_lt_of_le hi hf.widthB) hc
      subst e1; subst e2
      rw [if_pos rfl]
    · rw [if_neg hc]
      rcases hd with hd | ⟨rfl, rfl⟩
      · exact h.done i' j' hi' hj' hd
      · exact absurd rfl hc
  · intro x hx
    dsimp only
    rw [if_neg (hx i j hi hj (Or.inr ⟨rfl, rfl⟩))]
    exact h.rest x (fun i' j' hi' hj' hd => hx i' j' hi' hj' (Or.inl hd))

theorem transposeScalarBlock_inv {A B0 : Buf α} {n m lda ldb bs : Nat} {D : Nat → Nat → Prop} {B : Buf α}
    (hf : Fits A B0 n m lda ldb) (h : TrInv A B0 n m lda ldb D B) (I J : Nat) (hI : I + bs ≤ n) (hJ : J + bs ≤ m) :
    ∃ B', transposeScalarBlock A ((I:Int) * lda + J) ((J:Int) * ldb + I) lda ldb bs B = some B' ∧
      TrInv A B0 n m lda ldb (fun i j => D i j ∨ (I ≤ i ∧ i < I + bs ∧ J ≤ j ∧ j < J + bs)) B' := by
  unfold transposeScalarBlock
  have outer := forNM_inv (n := bs) (s := B)
    (body := fun i B => forNM bs (fun j B =>
      (A.rd (((I:Int) * lda + J) + ((i:Int) * lda + j))).bind fun v => B.wr (((J:Int) * ldb + I) + ((j:Int) * ldb + i)) v) B)
    (fun k B => TrInv A B0 n m lda ldb (fun i j => D i j ∨ (I ≤ i ∧ i < I + k ∧ J ≤ j ∧ j < J + bs)) B)
    (h.mono (fun i j _ _ => by constructor
                               · exact Or.inl
                               · rintro (q | q)
                                 · exact q
                                 · omega)) (by
      intro k hk B hB
      have inner := forNM_inv (n := bs) (s := B)
        (body := fun j B =>
          (A.rd (((I:Int) * lda + J) + ((k:Int) * lda + j))).bind fun v => B.wr (((J:Int) * ldb + I) + ((j:Int) * ldb + k)) v)
        (fun q B => TrInv A B0 n m lda ldb (fun i j => (D i j ∨ (I ≤ i ∧ i < I + k ∧ J ≤ j ∧ j < J + bs)) ∨
          (i = I + k ∧ J ≤ j ∧ j < J + q)) B)
        (hB.mono (fun i j _ _ => by constructor
                                    · exact Or.inl
                                    · rintro (q | q)
                                      · exact q
                                      · omega)) (by
          intro q hq B hB
          obtain ⟨B', e1, e2⟩ := hB.put hf (I + k) (J + q) (by omega) (by omega)
          refine ⟨B', ?_, e2.mono ?_⟩
          · have a1 : ((I:Int) * lda + J) + ((k:Int) * lda + q) = ((I + k : Nat) : Int) * lda + ((J + q : Nat) : Int) := by
              push_cast; ring
            have a2 : ((J:Int) * ldb + I) + ((q:Int) * ldb + k) = ((J + q : Nat) : Int) * ldb + ((I + k : Nat) : Int) := by
              push_cast; ring
            rw [a1, a2]; exact e1
          · intro i j _ _
            constructor
            · rintro ((d | d) | d)
              · exact Or.inl d
              · exact Or.inr (by omega)
              · exact Or.inr (by omega)
            · rintro (d | d)
              · exact Or.inl (Or.inl d)
              · by_cases hj : j = J + q
                · exact Or.inr (by omega)
                · exact Or.inl (Or.inr (by omega)))
      obtain ⟨B', e1, e2⟩ := inner
      refine ⟨B', e1, e2.mono ?_⟩
      intro i j _ _
      constructor
      · rintro ((d | d) | d)
        · exact Or.inl d
        · exact Or.inr (by omega)
        · exact Or.inr (by omega)
      · rintro (d | d)
        · exact Or.inl (Or.inl d)
        · by_cases hi : i = I + k
          · exact Or.inr (by omega)
          · exact Or.inl (Or.inr (by omega)))
  exact outer

theorem nblocks_of_dvd {n bs : Nat} (hb : 0 < bs) (h : bs ∣ n) : nblocks n bs * bs = n := by
  obtain ⟨k, rfl⟩ := h
  unfold nblocks
  have : bs * k + bs - 1 = (bs - 1) + bs * k := by omega
  rw [this, Nat.add_mul_div_left _ _ hb, Nat.div_eq_of_lt (by omega), Nat.zero_add, Nat.mul_comm]

/-- **C47 for block sizes dividing both dimensions**: no access outside the buffers, the transpose in place, and
every element of `B` outside the matrix untouched. -/
theorem transpose_correct_partial (A B : Buf α) (n m lda ldb bs : Nat) (hb : 0 < bs) (hn : bs ∣ n) (hm : bs ∣ m)
    (hf : Fits A B n m lda ldb) :
    ∃ B', transposeBlock A n m lda ldb bs B = some B' ∧ B'.size = B.size ∧ IsTranspose A B' n m lda ldb ∧
      ∀ x, (∀ i j : Nat, i < n → j < m → x ≠ (j:Int) * ldb + i) → B'.val x = B.val x := by
  have en := nblocks_of_dvd hb hn
  have em := nblocks_of_dvd hb hm
  have hle : ∀ {k N : Nat}, k < N → (k + 1) * bs ≤ N * bs := fun h => Nat.mul_le_mul_right bs h
  have outer := forNM_inv (n := nblocks n bs) (s := B)
    (body := fun bi B => forNM (nblocks m bs) (fun bj B =>
      transposeScalarBlock A ((bi:Int) * bs * lda + (bj:Int) * bs) ((bj:Int) * bs * ldb + (bi:Int) * bs) lda ldb bs B) B)
    (fun k B' => TrInv A B n m lda ldb (fun i _ => i < k * bs) B')
    ⟨rfl, fun i j _ _ h => by simp at h, fun x _ => rfl⟩ (by
      intro k hk B1 hB1
      have hk' := hle hk
      rw [en, Nat.add_mul, Nat.one_mul] at hk'
      have inner := forNM_inv (n := nblocks m bs) (s := B1)
        (body := fun bj B =>
          transposeScalarBlock A ((k:Int) * bs * lda + (bj:Int) * bs) ((bj:Int) * bs * ldb + (k:Int) * bs) lda ldb bs B)
        (fun q B' => TrInv A B n m lda ldb (fun i j => i < k * bs ∨ (k * bs ≤ i ∧ i < k * bs + bs ∧ j < q * bs)) B')
        (hB1.mono (fun i j _ _ => by constructor
                                     · exact Or.inl
                                     · rintro (q | q)
                                       · exact q
                                       · omega)) (by
          intro q hq B2 hB2
          have hq' := hle hq
          rw [em, Nat.add_mul, Nat.one_mul] at hq'
          obtain ⟨B', e1, e2⟩ := transposeScalarBlock_inv hf hB2 (k * bs) (q * bs) hk' hq'
          refine ⟨B', ?_, e2.mono ?_⟩
          · push_cast at e1; exact e1
          · intro i j _ _
            rw [Nat.add_mul, Nat.one_mul]
            generalize k * bs = kb
            generalize q * bs = qb
            omega)
      obtain ⟨B', e1, e2⟩ := inner
      refine ⟨B', e1, e2.mono ?_⟩
      intro i j hi hj
      rw [em, Nat.add_mul, Nat.one_mul]
      generalize k * bs = kb
      omega)
  obtain ⟨B', e1, e2⟩ := outer
  rw [en] at e2
  exact ⟨B', e1, e2.size, fun i j hi hj => e2.done i j hi hj hi, fun x hx => e2.rest x (fun i j hi hj _ => hx i j hi hj)⟩

theorem forNM_none {σ : Type} {n : Nat} {body : Nat → σ → Option σ} {s : σ} (k : Nat) (hk : k < n)
    (h : ∀ s, body k s = none) : forNM n body s = none := by
  induction n with
  | zero => omega
  | succ n ih =>
    rw [forNM_succ]
    by_cases hc : k = n
    · subst hc
      cases forNM k body s with
      | none => rfl
      | some t => exact h t
    · rw [ih (by omega)]; rfl

/-- **C47 is refuted**: for a densely stored matrix, whenever the block size does not divide the number of rows
the function reads outside `A`. -/
theorem transpose_overruns (A B : Buf α) (n m bs : Nat) (hb : 0 < bs) (hm : 0 < m) (hn : ¬ bs ∣ n)
    (hA : A.size = n * m) : transposeBlock A n m m n bs B = none := by
  have hpos : 0 < n := by
    rcases Nat.eq_zero_or_pos n with h | h
    · subst h; exact absurd (Nat.dvd_zero bs) hn
    · exact h
  -- the last block row starts below n and ends beyond n
  have hdm := Nat.div_add_mod n bs
  have hml : n % bs < bs := Nat.mod_lt _ hb
  have hmp : 0 < n % bs := by
    rcases Nat.eq_zero_or_pos (n % bs) with h | h
    · exact absurd (Nat.dvd_of_mod_eq_zero h) hn
    · exact h
  have hq : n / bs < nblocks n bs := by
    unfold nblocks
    rw [Nat.lt_div_iff_mul_lt hb]
    have : n / bs * bs = bs * (n / bs) := Nat.mul_comm _ _
    omega
  have hm2 : 0 < nblocks m bs := by
    unfold nblocks
    exact Nat.div_pos (by omega) hb
  unfold transposeBlock
  apply forNM_none (n / bs) hq
  intro B1
  apply forNM_none 0 hm2
  intro B2
  unfold transposeScalarBlock
  apply forNM_none (n % bs) hml
  intro B3
  apply forNM_none 0 hb
  intro B4
  have hread : A.rd (((n / bs : Nat) : Int) * bs * m + ((0:Nat):Int) * bs + (((n % bs : Nat) : Int) * m + ((0:Nat):Int))) = none := by
    have e : (((n / bs : Nat) : Int) * bs * m + ((0:Nat):Int) * bs + (((n % bs : Nat) : Int) * m + ((0:Nat):Int)))
        = ((n * m : Nat) : Int) := by
      have h1 : ((bs * (n / bs) + n % bs : Nat) : Int) = (n : Int) := by rw [hdm]
      calc _ = ((bs * (n / bs) + n % bs : Nat) : Int) * m := by push_cast; ring
        _ = _ := by rw [h1]; push_cast; ring
    rw [e]
    have hno : ¬ A.ok ((n * m : Nat) : Int) := by
      unfold Buf.ok; rw [hA]; omega
    unfold Buf.rd
    rw [if_neg hno]
  rw [hread]
  rfl

/-- A 2 by 4 matrix in blocks of 2. -/
example : (transposeBlock (Buf.ofList [1,2,3,4, 5,6,7,8]) 2 4 4 2 2 ⟨8, fun _ => (0:Int)⟩).map
    (fun B => [B.val 0, B.val 1, B.val 2, B.val 3, B.val 4, B.val 5, B.val 6, B.val 7]) =
    some [1,5,2,6,3,7,4,8] := by decide +kernel
example : Fits (Buf.ofList [1,2,3,4, 5,6,7,8]) (⟨8, fun _ => (0:Int)⟩ : Buf Int) 2 4 4 2 :=
  ⟨by omega, by omega, fun i j hi hj => ⟨by omega, by simp [Buf.ofList]; omega⟩, fun i j hi hj => ⟨by omega, by simp; omega⟩⟩

/-! ### With OpenMP threads

`j` is declared outside the parallel loop and is not listed as private, so all threads share it. -/

/-- Shared variables of `transpose_scalar_block`: the loop variable `j` and the elements of `B`. -/
inductive Var where
  | j
  | B (row col : Nat)
deriving DecidableEq

/-- Thread `i` (iteration `i` of the parallel loop, `i < bs`) executing
`for(j=0;j<bs;j++) B[j*ldb+i]=A[i*lda+j];` with shared `j`.  The local state is the program point:
0 `j=0`, 1 test, 2 body, 3 `j++`, 4 end.  Element `B[j*ldb+i]` is `Var.B j i`. -/
def transposeThread (bs : Nat) (A : Nat → Nat → Int) : Par.Sys Nat Nat Var Int := fun i pc m =>
  if i < bs then
    match pc with
    | 0 => some (1, fun x => if x = Var.j then 0 else m x)
    | 1 => some (if m Var.j < bs then 2 else 4, m)
    | 2 => some (3, fun x => if x = Var.B (m Var.j).toNat i then A i (m Var.j).toNat else m x)
    | 3 => some (1, fun x => if x = Var.j then m Var.j + 1 else m x)
    | _ => none
  else none

/-- **C47 with threads is refuted**: for a 2 by 2 block there is a complete schedule of the two threads after which
`B` is not the transpose of `A`. -/
theorem transpose_shared_j_race :
    ∃ sched : List Nat, Par.Done (transposeThread 2 (fun _ _ => 1))
      (Par.exec (transposeThread 2 (fun _ _ => 1)) sched ⟨fun _ => 0, fun _ => 0⟩) ∧
      ∃ i j, i < 2 ∧ j < 2 ∧
        (Par.exec (transposeThread 2 (fun _ _ => 1)) sched ⟨fun _ => 0, fun _ => 0⟩).mem (Var.B j i) ≠ 1 := by
  refine ⟨[0, 1, 0, 0, 0, 1, 1, 1, 0, 1], ?_, 0, 1, by omega, by omega, by decide⟩
  intro t
  by_cases ht : t < 2
  · have : t = 0 ∨ t = 1 := by omega
    rcases this with rfl | rfl
    · rfl
    · rfl
  · unfold transposeThread
    rw [if_neg ht]

end Verif.Util
