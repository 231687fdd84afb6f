/-!
# C-style loops and bounded buffers

Common vocabulary for transcribing C code: counted loops, loops that may hit undefined
behaviour, and buffers whose out-of-range accesses are a distinct outcome (`none`).
Nothing in this file models a particular function of the repository.
-/

namespace Verif

universe u v

/-- `for (k=0; k<n; k++) s = body(k,s)`. -/
def forN {σ : Type u} (n : Nat) (body : Nat → σ → σ) (s : σ) : σ :=
  match n with
  | 0 => s
  | n+1 => body n (forN n body s)

/-- `for (j=lo; j<hi; j++) s = body(j,s)` with `int` bounds (no iterations if `hi ≤ lo`). -/
def forI {σ : Type u} (lo hi : Int) (body : Int → σ → σ) (s : σ) : σ :=
  forN (hi - lo).toNat (fun k => body (lo + k)) s

/-- Counted loop whose body may run into undefined behaviour (`none`). -/
def forNM {σ : Type u} (n : Nat) (body : Nat → σ → Option σ) (s : σ) : Option σ :=
  match n with
  | 0 => some s
  | n+1 => (forNM n body s).bind (body n)

/-- `int`-bounded loop whose body may run into undefined behaviour. -/
def forIM {σ : Type u} (lo hi : Int) (body : Int → σ → Option σ) (s : σ) : Option σ :=
  forNM (hi - lo).toNat (fun k => body (lo + k)) s

@[simp] theorem forN_zero {σ : Type u} (body : Nat → σ → σ) (s : σ) : forN 0 body s = s := rfl
theorem forN_succ {σ : Type u} (n : Nat) (body : Nat → σ → σ) (s : σ) :
    forN (n+1) body s = body n (forN n body s) := rfl
@[simp] theorem forNM_zero {σ : Type u} (body : Nat → σ → Option σ) (s : σ) :
    forNM 0 body s = some s := rfl
theorem forNM_succ {σ : Type u} (n : Nat) (body : Nat → σ → Option σ) (s : σ) :
    forNM (n+1) body s = (forNM n body s).bind (body n) := rfl

theorem forN_inv {σ : Type u} {n : Nat} {body : Nat → σ → σ} {s : σ} (P : Nat → σ → Prop)
    (h0 : P 0 s) (hs : ∀ k, k < n → ∀ s, P k s → P (k+1) (body k s)) : P n (forN n body s) := by
  induction n with
  | zero => exact h0
  | succ n ih =>
    exact hs n (Nat.lt_succ_self n) _ (ih (fun k hk => hs k (Nat.lt_succ_of_lt hk)))

theorem forNM_inv {σ : Type u} {n : Nat} {body : Nat → σ → Option σ} {s : σ} (P : Nat → σ → Prop)
    (h0 : P 0 s) (hs : ∀ k, k < n → ∀ s, P k s → ∃ s', body k s = some s' ∧ P (k+1) s') :
    ∃ s', forNM n body s = some s' ∧ P n s' := by
  induction n with
  | zero => exact ⟨s, rfl, h0⟩
  | succ n ih =>
    obtain ⟨s', h1, h2⟩ := ih (fun k hk => hs k (Nat.lt_succ_of_lt hk))
    obtain ⟨s'', h3, h4⟩ := hs n (Nat.lt_succ_self n) _ h2
    exact ⟨s'', by simp [forNM_succ, h1, h3], h4⟩

theorem forN_congr {σ : Type u} {n : Nat} {f g : Nat → σ → σ} {s : σ}
    (h : ∀ k, k < n → ∀ s, f k s = g k s) : forN n f s = forN n g s := by
  induction n with
  | zero => rfl
  | succ n ih =>
    rw [forN_succ, forN_succ, ih (fun k hk => h k (Nat.lt_succ_of_lt hk)), h n (Nat.lt_succ_self n)]

/-- A loop of no-ops except for iteration `k0`. -/
theorem forN_single {σ : Type u} {n : Nat} {f : Nat → σ → σ} {s : σ} (k0 : Nat) (hk0 : k0 < n)
    (h : ∀ k, k < n → k ≠ k0 → ∀ s, f k s = s) : forN n f s = f k0 s := by
  have key : ∀ m, m ≤ n → forN m f s = if k0 < m then f k0 s else s := by
    intro m
    induction m with
    | zero => intro _; simp
    | succ m ih =>
      intro hm
      rw [forN_succ, ih (by omega)]
      by_cases h1 : m = k0
      · subst h1; simp
      · rw [h m (by omega) h1]
        by_cases h2 : k0 < m
        · simp [h2, Nat.lt_succ_of_lt h2]
        · have : ¬ k0 < m + 1 := by omega
          simp [h2, this]
  simpa [hk0] using key n (Nat.le_refl n)

/-- A loop of no-ops. -/
theorem forN_noop {σ : Type u} {n : Nat} {f : Nat → σ → σ} {s : σ}
    (h : ∀ k, k < n → ∀ s, f k s = s) : forN n f s = s := by
  induction n with
  | zero => rfl
  | succ n ih => rw [forN_succ, ih (fun k hk => h k (by omega)), h n (by omega)]

/-- Split a loop. -/
theorem forN_add {σ : Type u} (m n : Nat) (f : Nat → σ → σ) (s : σ) :
    forN (m+n) f s = forN n (fun k => f (m+k)) (forN m f s) := by
  induction n with
  | zero => rfl
  | succ n ih => rw [← Nat.add_assoc, forN_succ, ih, forN_succ]

/-- A C array of known size: accesses outside `[0,size)` are undefined behaviour. -/
structure Buf (α : Type u) where
  /-- number of allocated elements -/
  size : Nat
  /-- contents; only the values at `0 ≤ i < size` are meaningful -/
  val : Int → α

namespace Buf
variable {α : Type u}

/-- In-range test. -/
def ok (b : Buf α) (i : Int) : Prop := 0 ≤ i ∧ i < b.size

instance (b : Buf α) (i : Int) : Decidable (b.ok i) := by unfold ok; infer_instance

/-- C read `b[i]`. -/
def rd (b : Buf α) (i : Int) : Option α := if b.ok i then some (b.val i) else none

/-- C write `b[i] = v`. -/
def wr (b : Buf α) (i : Int) (v : α) : Option (Buf α) :=
  if b.ok i then some { b with val := fun k => if k = i then v else b.val k } else none

/-- Make a buffer from a list. -/
def ofList [Inhabited α] (l : List α) : Buf α := ⟨l.length, fun i => l.getD i.toNat default⟩

theorem rd_ok {b : Buf α} {i : Int} (h : b.ok i) : b.rd i = some (b.val i) := by simp [rd, h]
theorem wr_ok {b : Buf α} {i : Int} {v : α} (h : b.ok i) :
    b.wr i v = some { b with val := fun k => if k = i then v else b.val k } := by simp [wr, h]

end Buf

/-- `f` always succeeds on buffers of size `N` and acts on every element separately by `g`. -/
def PW {α : Type u} (N : Nat) (f : Buf α → Option (Buf α)) (g : Int → α → α) : Prop :=
  ∀ d : Buf α, d.size = N → ∃ d', f d = some d' ∧ d'.size = N ∧ ∀ x, d'.val x = g x (d.val x)

theorem PW.congr {α : Type u} {N : Nat} {f : Buf α → Option (Buf α)} {g g' : Int → α → α}
    (h : PW N f g) (hg : ∀ x v, g x v = g' x v) : PW N f g' := by
  intro d hd
  obtain ⟨d', h1, h2, h3⟩ := h d hd
  exact ⟨d', h1, h2, fun x => by rw [h3, hg]⟩

theorem PW.id {α : Type u} {N : Nat} : PW N (fun d : Buf α => some d) (fun _ v => v) :=
  fun d hd => ⟨d, rfl, hd, fun _ => rfl⟩

theorem PW.comp {α : Type u} {N : Nat} {f f' : Buf α → Option (Buf α)} {g g' : Int → α → α}
    (h : PW N f g) (h' : PW N f' g') : PW N (fun d => (f d).bind f') (fun x v => g' x (g x v)) := by
  intro d hd
  obtain ⟨d1, h1, h2, h3⟩ := h d hd
  obtain ⟨d2, k1, k2, k3⟩ := h' d1 h2
  exact ⟨d2, by simp [h1, k1], k2, fun x => by rw [k3, h3]⟩

theorem PW.forNM {α : Type u} {N n : Nat} {f : Nat → Buf α → Option (Buf α)}
    {g : Nat → Int → α → α} (h : ∀ k, k < n → PW N (f k) (g k)) :
    PW N (fun d => forNM n f d) (fun x v => forN n (fun k => g k x) v) := by
  induction n with
  | zero => exact PW.id
  | succ n ih =>
    have := PW.comp (ih (fun k hk => h k (by omega))) (h n (by omega))
    exact this

theorem PW.forIM {α : Type u} {N : Nat} {lo hi : Int} {f : Int → Buf α → Option (Buf α)}
    {g : Int → Int → α → α} (h : ∀ j, lo ≤ j → j < hi → PW N (f j) (g j)) :
    PW N (fun d => forIM lo hi f d) (fun x v => forI lo hi (fun j => g j x) v) := by
  unfold Verif.forIM forI
  exact PW.forNM (f := fun k => f (lo + k)) (g := fun k => g (lo + k))
    (fun k hk => h _ (by omega) (by omega))

/-- A single write of a function of the old value. -/
theorem PW.upd {α : Type u} {N : Nat} {i : Int} (hi : 0 ≤ i ∧ i < N) (u : α → α) :
    PW N (fun d : Buf α => (d.rd i).bind (fun v => d.wr i (u v)))
      (fun x v => if x = i then u v else v) := by
  intro d hd
  have hok : d.ok i := by unfold Buf.ok; rw [hd]; exact hi
  refine ⟨{ d with val := fun k => if k = i then u (d.val i) else d.val k }, ?_, hd, ?_⟩
  · simp [Buf.rd_ok hok, Buf.wr_ok hok]
  · intro x
    by_cases hx : x = i
    · subst hx; simp
    · simp [hx]

/-- A single constant write. -/
theorem PW.set {α : Type u} {N : Nat} {i : Int} (hi : 0 ≤ i ∧ i < N) (c : α) :
    PW N (fun d : Buf α => d.wr i c) (fun x v => if x = i then c else v) := by
  intro d hd
  have hok : d.ok i := by unfold Buf.ok; rw [hd]; exact hi
  exact ⟨{ d with val := fun k => if k = i then c else d.val k }, Buf.wr_ok hok, hd, fun _ => rfl⟩

end Verif
