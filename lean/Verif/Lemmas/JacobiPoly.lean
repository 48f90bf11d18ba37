import Verif.Lemmas.PlainLanczos
import Verif.Model.JacobiPoly

/-!
# Lemmas on eigenvalues of the Jacobi matrix
-/

namespace Verif.JacobiPoly

open Matrix Finset Lanczos SolveLoop.Spec

variable {R : Type} [Field R] [LinearOrder R] {κ : Type} [Fintype κ] [DecidableEq κ]

/-- The polynomial at `T`, applied to `r`. -/
def ev (T : Matrix κ κ R) (r : κ → R) (n : Nat) (p : Nat → R) : κ → R :=
  ∑ i ∈ range n, p i • (T ^ i *ᵥ r)

/-- The form is an inner product of vectors. -/
def Represents (B : Form R) (W A : Matrix κ κ R) (r : κ → R) : Prop :=
  ∀ np p nq q, 0 < np → 0 < nq → B np p nq q = ip W (ev Aᵀ r np p) (ev Aᵀ r nq q)

/-- No coefficients from `j` on. -/
def Deg (j : Nat) (p : Nat → R) : Prop := ∀ i, j ≤ i → p i = 0

/-- The steps of either loop. -/
inductive PolyRun (B : Form R) (sqrt : R → R) (n : Nat) :
    (Nat → R) → (Nat → R) → R → List (R × R) → (Nat → R) → Prop
  | stop (v vp : Nat → R) (beta : R) : PolyRun B sqrt n v vp beta [] v
  | step (v vp : Nat → R) (beta s : R) (l : List (R × R)) (vn : Nat → R)
      (hs : s = B n (residual B n v vp beta) n (residual B n v vp beta)) (hpos : 0 < s)
      (h : PolyRun B sqrt n (fun i => residual B n v vp beta i / sqrt s) v (sqrt s) l vn) :
      PolyRun B sqrt n v vp beta ((B n (shift n v) n v, sqrt s) :: l) vn

theorem loop_polyRun {B : Form R} {sqrt : R → R} {n : Nat} : ∀ (k : Nat) (v vp : Nat → R) (beta : R)
    (l : List (R × R)) (vn : Nat → R), loop B sqrt n k v vp beta = some (l, vn) →
    PolyRun B sqrt n v vp beta l vn ∧ l.length = k := by
  intro k
  induction k with
  | zero =>
    intro v vp beta l vn h
    rw [loop] at h
    obtain ⟨rfl, rfl⟩ := Prod.mk.inj (Option.some.inj h)
    exact ⟨.stop _ _ _, rfl⟩
  | succ k ih =>
    intro v vp beta l vn h
    rw [loop] at h
    split_ifs at h with h0
    obtain ⟨⟨l', vn'⟩, h1, h2⟩ := Option.map_eq_some_iff.1 h
    obtain ⟨rfl, rfl⟩ := Prod.mk.inj h2
    obtain ⟨h3, h4⟩ := ih _ _ _ _ _ h1
    exact ⟨.step _ _ _ _ _ _ rfl (not_le.1 h0) h3, by simp [h4]⟩

theorem loopH_polyRun [IsStrictOrderedRing R] {B : Form R} {sqrt : R → R} {n : Nat} :
    ∀ (k : Nat) (v vp : Nat → R) (beta : R),
    PolyRun B sqrt n v vp beta (loopH B sqrt n k v vp beta).1 (loopH B sqrt n k v vp beta).2 ∧
      (loopH B sqrt n k v vp beta).1.length ≤ k := by
  intro k
  induction k with
  | zero => exact fun v vp beta => ⟨.stop _ _ _, le_rfl⟩
  | succ k ih =>
    intro v vp beta
    rw [loopH]
    simp only
    split_ifs with h0
    · exact ⟨.stop _ _ _, by simp⟩
    · have hpos : 0 < B n (residual B n v vp beta) n (residual B n v vp beta) :=
        lt_trans (by positivity) (not_le.1 h0)
      obtain ⟨h1, h2⟩ := ih _ v _
      exact ⟨.step _ _ _ _ _ _ rfl hpos h1, by simpa using h2⟩

section Ev

variable {T : Matrix κ κ R} {r : κ → R}

theorem ev_shift (n : Nat) (p : Nat → R) :
    ev T r (n + 1) (shift (n + 1) p) = T *ᵥ ev T r n p := by
  unfold ev
  rw [sum_range_succ', mulVec_sum]
  have : shift (n + 1) p 0 = 0 := rfl
  rw [this, zero_smul, add_zero]
  refine sum_congr rfl fun i hi => ?_
  have hi := mem_range.1 hi
  have : shift (n + 1) p (i + 1) = p i := by
    unfold shift
    rw [if_neg (by omega), if_pos (by omega)]
    rfl
  rw [this, mulVec_smul, mulVec_mulVec, pow_succ']

theorem ev_deg {j n : Nat} {p : Nat → R} (h : Deg j p) (hj : j ≤ n) :
    ev T r (n + 1) p = ev T r n p := by
  unfold ev
  rw [sum_range_succ, h n hj, zero_smul, add_zero]

theorem ev_shift_deg {j n : Nat} {p : Nat → R} (h : Deg j p) (hj : j < n) :
    ev T r n (shift n p) = T *ᵥ ev T r n p := by
  obtain ⟨m, rfl⟩ : ∃ m, n = m + 1 := ⟨n - 1, by omega⟩
  rw [ev_shift, ev_deg h (by omega)]

theorem ev_sub (n : Nat) (p q : Nat → R) : ev T r n (fun i => p i - q i) = ev T r n p - ev T r n q := by
  simp only [ev, sub_smul, sum_sub_distrib]

theorem ev_mul (n : Nat) (c : R) (p : Nat → R) : ev T r n (fun i => c * p i) = c • ev T r n p := by
  simp only [ev, mul_smul, smul_sum]

theorem ev_div (n : Nat) (c : R) (p : Nat → R) :
    ev T r n (fun i => p i / c) = fun i => ev T r n p i / c := by
  funext k
  simp only [ev, Finset.sum_apply, Pi.smul_apply, smul_eq_mul, sum_div]
  exact sum_congr rfl fun i _ => by ring

theorem ev_one {n : Nat} (hn : 0 < n) : ev T r n one = r := by
  obtain ⟨m, rfl⟩ : ∃ m, n = m + 1 := ⟨n - 1, by omega⟩
  unfold ev
  rw [sum_range_succ']
  have h1 : ∀ i ∈ range m, (one (i + 1) : R) • (T ^ (i + 1) *ᵥ r) = 0 := fun i _ => by simp [one]
  rw [sum_eq_zero h1]
  simp [one]

theorem deg_shift {j n : Nat} {p : Nat → R} (h : Deg j p) : Deg (j + 1) (shift n p) := by
  intro i hi
  unfold shift
  rw [if_neg (by omega)]
  split_ifs
  · exact h _ (by omega)
  · rfl

theorem deg_residual {B : Form R} {j n : Nat} {v vp : Nat → R} {beta : R} (hv : Deg j v)
    (hp : Deg j vp) : Deg (j + 1) (residual B n v vp beta) := by
  intro i hi
  simp only [residual]
  rw [deg_shift hv i hi, hv i (by omega), hp i (by omega)]
  ring

end Ev

section Run

variable {B : Form R} {W A : Matrix κ κ R} {r : κ → R} {sqrt : R → R} {n : Nat}

/-- The vectors of a polynomial. -/
def pair (W A : Matrix κ κ R) (r : κ → R) (n : Nat) (p : Nat → R) : Pair κ R :=
  ⟨W *ᵥ ev Aᵀ r n p, ev Aᵀ r n p⟩

theorem pair_inner (hB : Represents B W A r) (hn : 0 < n) (p q : Nat → R) :
    B n p n q = Lanczos.inner (pair W A r n p) (pair W A r n q) := by
  rw [hB n p n q hn hn]
  rfl

theorem pair_apply (hc : A * W = W * Aᵀ) (p : Nat → R) :
    Lanczos.apply A (pair W A r n p) = ⟨W *ᵥ (Aᵀ *ᵥ ev Aᵀ r n p), Aᵀ *ᵥ ev Aᵀ r n p⟩ := by
  simp only [Lanczos.apply, pair, mulVec_mulVec, hc]

theorem alpha_eq (hcm : ∀ x y, ip W x y = ip W y x) (hB : Represents B W A r) (hc : A * W = W * Aᵀ)
    {j : Nat} {v : Nat → R} (hv : Deg j v)
    (hj : j < n) :
    B n (shift n v) n v = Lanczos.inner (pair W A r n v) (Lanczos.apply A (pair W A r n v)) := by
  rw [hB _ _ _ _ (by omega) (by omega), ev_shift_deg hv hj, hcm, pair_apply hc]
  rfl

theorem alpha_last (hcm : ∀ x y, ip W x y = ip W y x) (hB : Represents B W A r)
    (hc : A * W = W * Aᵀ) (hn : 0 < n) (v : Nat → R) :
    B (n + 1) (shift (n + 1) v) n v =
      Lanczos.inner (pair W A r n v) (Lanczos.apply A (pair W A r n v)) := by
  rw [hB _ _ _ _ (by omega) hn, ev_shift, hcm, pair_apply hc]
  rfl

theorem pair_residual (hcm : ∀ x y, ip W x y = ip W y x) (hB : Represents B W A r)
    (hc : A * W = W * Aᵀ) {j : Nat}
    {v vp : Nat → R} (hv : Deg j v) (hj : j < n) (beta : R) :
    pair W A r n (residual B n v vp beta) =
      subSmul (subSmul (Lanczos.apply A (pair W A r n v))
        (Lanczos.inner (pair W A r n v) (Lanczos.apply A (pair W A r n v))) (pair W A r n v)) beta
        (pair W A r n vp) := by
  have h1 := alpha_eq hcm hB hc hv hj
  set alpha := Lanczos.inner (pair W A r n v) (Lanczos.apply A (pair W A r n v))
  have h2 : residual B n v vp beta = fun i => (shift n v i - alpha * v i) - beta * vp i := by
    funext i
    simp only [residual, h1]
  rw [h2]
  unfold pair
  rw [ev_sub n (fun i => shift n v i - alpha * v i) (fun i => beta * vp i),
    ev_sub n (shift n v) (fun i => alpha * v i), ev_mul, ev_mul, ev_shift_deg hv hj]
  have h3 := pair_apply (r := r) (n := n) hc v
  unfold pair at h3
  rw [h3]
  simp only [subSmul, mulVec_sub, mulVec_smul]

theorem pair_div (p : Nat → R) (c : R) :
    pair W A r n (fun i => p i / c) = divBy (pair W A r n p) c := by
  unfold pair divBy
  rw [ev_div]
  congr 1
  have : (fun i => ev Aᵀ r n p i / c) = c⁻¹ • ev Aᵀ r n p := by
    funext i
    simp [div_eq_inv_mul]
  rw [this, mulVec_smul]
  funext i
  simp [div_eq_inv_mul]

theorem deg_div {j : Nat} {p : Nat → R} (h : Deg j p) (c : R) : Deg j fun i => p i / c := by
  intro i hi
  simp only [h i hi, zero_div]

/-- The recurrence on polynomials is the recurrence on vectors. -/
theorem polyRun_run (hcm : ∀ x y, ip W x y = ip W y x) (hB : Represents B W A r)
    (hc : A * W = W * Aᵀ) : ∀ (v vp : Nat → R) (beta : R)
    (l : List (R × R)) (vn : Nat → R), PolyRun B sqrt n v vp beta l vn → ∀ j, 0 < n → Deg j v →
    Deg j vp → j + l.length ≤ n →
    ∃ l' : List (R × R), Run sqrt A (pair W A r n v)
        (subSmul (subSmul (Lanczos.apply A (pair W A r n v))
          (Lanczos.inner (pair W A r n v) (Lanczos.apply A (pair W A r n v))) (pair W A r n v)) beta
          (pair W A r n vp)) l' ∧
      finish B n (l, vn) = (Lanczos.inner (pair W A r n v) (Lanczos.apply A (pair W A r n v)) ::
        l'.map Prod.snd, l'.map Prod.fst) := by
  intro v vp beta l vn h
  induction h with
  | stop v vp beta =>
    intro j hn hv hp hj
    refine ⟨[], .stop _ _, ?_⟩
    simp only [finish, List.map_nil, List.nil_append]
    rw [alpha_last hcm hB hc hn]
  | step v vp beta s l vn hs hpos h ih =>
    intro j hn hv hp hj
    have hj' : j < n := by
      simp only [List.length_cons] at hj
      omega
    obtain ⟨l', h1, h2⟩ := ih (j + 1) hn (deg_div (deg_residual hv hp) _)
      (fun i hi => hv i (by omega)) (by simpa [Nat.add_assoc, Nat.add_comm 1] using hj)
    have hr := pair_residual hcm hB hc (vp := vp) hv hj' beta
    rw [pair_inner hB hn] at hs
    rw [hr] at hs
    rw [pair_div, hr] at h1 h2
    refine ⟨_, Run.step _ _ l' (by rw [← hs]; exact hpos) ?_, ?_⟩
    · rw [← hs]
      exact h1
    · simp only [finish] at h2
      obtain ⟨h3, h4⟩ := Prod.mk.inj h2
      simp only [finish, List.map_cons, List.cons_append]
      rw [h3, h4, alpha_eq hcm hB hc hv hj', ← hs]

/-- Either run gives a result of the recurrence on vectors. -/
theorem finish_result (hcm : ∀ x y, ip W x y = ip W y x) (hB : Represents B W A r)
    (hc : A * W = W * Aᵀ) (hn : 0 < n)
    (hpos : 0 < B n one n one) {l : List (R × R)} {vn : Nat → R} (hl : l.length + 1 ≤ n)
    (h : PolyRun B sqrt n (fun i => one i / sqrt (B n one n one)) (fun _ => 0)
      (sqrt (B n one n one)) l vn) : Result sqrt A W r (finish B n (l, vn)) := by
  have h1 : Deg 1 (one : Nat → R) := fun i hi => if_neg (by omega)
  obtain ⟨l', h2, h3⟩ := polyRun_run hcm hB hc _ _ _ _ _ h 1 hn (deg_div h1 _) (fun _ _ => rfl)
    (by omega)
  have h4 : pair W A r n one = ⟨W *ᵥ r, r⟩ := by
    unfold pair
    rw [ev_one hn]
  have h5 : pair W A r n (fun _ => 0) = ⟨0, 0⟩ := by
    simp [pair, ev]
  have h6 : B n one n one = Lanczos.inner (⟨W *ᵥ r, r⟩ : Pair κ R) ⟨W *ᵥ r, r⟩ := by
    rw [pair_inner hB hn, h4]
  rw [h6] at hpos
  rw [pair_div, h4, h5, h6] at h2
  rw [pair_div, h4, h6] at h3
  have e : ∀ (V : Pair κ R) (c : R), subSmul V c ⟨0, 0⟩ = V := fun V c => by simp [subSmul]
  rw [e] at h2
  exact ⟨hpos, l', h2, h3⟩

/-- Two runs of the same length are the same. -/
theorem run_unique : ∀ {V U : Pair κ R} {l l' : List (R × R)}, Run sqrt A V U l → Run sqrt A V U l' →
    l.length = l'.length → l = l' := by
  intro V U l l' h
  induction h generalizing l' with
  | stop V U =>
    intro _ hl
    exact (List.length_eq_zero_iff.1 hl.symm).symm
  | step V U l hpos h ih =>
    intro h' hl
    cases h' with
    | stop => simp at hl
    | step _ _ l2 hpos' h2 => rw [ih h2 (by simpa using hl)]

/-- While the recurrence on vectors goes on, the one on polynomials does. -/
theorem loop_some (hcm : ∀ x y, ip W x y = ip W y x) (hB : Represents B W A r)
    (hc : A * W = W * Aᵀ) : ∀ (k j : Nat) (v vp : Nat → R) (beta : R) (l' : List (R × R)), 0 < n →
    Deg j v → Deg j vp → j + k ≤ n → l'.length = k →
    Run sqrt A (pair W A r n v)
        (subSmul (subSmul (Lanczos.apply A (pair W A r n v))
          (Lanczos.inner (pair W A r n v) (Lanczos.apply A (pair W A r n v))) (pair W A r n v)) beta
          (pair W A r n vp)) l' → ∃ q, loop B sqrt n k v vp beta = some q := by
  intro k
  induction k with
  | zero => exact fun j v vp beta l' _ _ _ _ _ _ => ⟨_, rfl⟩
  | succ k ih =>
    intro j v vp beta l' hn hv hp hj hl h
    have hr := pair_residual hcm hB hc (vp := vp) hv (n := n) (by omega) beta
    rw [← hr] at h
    cases h with
    | stop => simp at hl
    | step _ _ l2 hpos h2 =>
      rw [← pair_div] at h2
      rw [← pair_inner hB hn] at hpos h2
      obtain ⟨q, hq⟩ := ih (j + 1) (fun i => residual B n v vp beta i /
        sqrt (B n (residual B n v vp beta) n (residual B n v vp beta))) v _ l2 hn
        (deg_div (deg_residual hv hp) _) (fun i hi => hv i (by omega)) (by omega) (by simpa using hl) h2
      rw [loop]
      simp only [if_neg (not_le.2 hpos), hq]
      exact ⟨_, rfl⟩

/-- Without early stop the results agree. -/
theorem run_agree (hcm : ∀ x y, ip W x y = ip W y x) (hB : Represents B W A r)
    (hc : A * W = W * Aᵀ) (hn : 0 < n) {q : List R × List R} (h : Result sqrt A W r q)
    (hq : q.2.length + 1 = n) : run B sqrt n = .ok (some q) := by
  obtain ⟨hpos, l', hl', rfl⟩ := h
  have h4 : pair W A r n one = ⟨W *ᵥ r, r⟩ := by
    unfold pair
    rw [ev_one hn]
  have h5 : pair W A r n (fun _ => 0) = ⟨0, 0⟩ := by
    simp [pair, ev]
  have h6 : B n one n one = Lanczos.inner (⟨W *ᵥ r, r⟩ : Pair κ R) ⟨W *ᵥ r, r⟩ := by
    rw [pair_inner hB hn, h4]
  have h1 : Deg 1 (one : Nat → R) := fun i hi => if_neg (by omega)
  have hlen : l'.length = n - 1 := by
    simp only [List.length_map] at hq
    omega
  have hpos' := hpos
  rw [← h6] at hpos'
  have e : ∀ (V : Pair κ R) (c : R), subSmul V c ⟨0, 0⟩ = V := fun V c => by simp [subSmul]
  obtain ⟨⟨l, vn⟩, hp⟩ := loop_some (sqrt := sqrt) hcm hB hc (n - 1) 1
    (fun i => one i / sqrt (B n one n one)) (fun _ => 0) (sqrt (B n one n one)) l' hn (deg_div h1 _)
    (fun _ _ => rfl) (by omega) hlen (by
      rw [pair_div, h4, h5, h6, e]
      exact hl')
  obtain ⟨h7, h8⟩ := loop_polyRun _ _ _ _ _ _ hp
  obtain ⟨l2, h9, h10⟩ := polyRun_run hcm hB hc _ _ _ _ _ h7 1 hn (deg_div h1 _) (fun _ _ => rfl)
    (by omega)
  rw [pair_div, h4, h5, h6, e] at h9
  rw [pair_div, h4, h6] at h10
  have h11 : l2.length = l'.length := by
    have := congrArg (fun x => x.2.length) h10
    simp only [finish, List.length_map] at this
    omega
  obtain rfl := run_unique h9 hl' h11
  unfold run
  simp only [if_neg hn.ne', if_neg (not_le.2 hpos'), hp]
  simp only [Option.map_some, h10]

end Run

section Real

variable {ι : Type} [Fintype ι] [DecidableEq ι]

theorem powers_eq (A : Matrix ι ι R) (i : Nat) : powers A i = A ^ i := by
  induction i with
  | zero => simp [powers]
  | succ i ih => rw [powers, ih, pow_succ']

theorem foldl_add {M : Type} [AddCommMonoid M] (f : Nat → M) (a : M) (n : Nat) :
    (List.range n).foldl (fun y i => y + f i) a = a + ∑ i ∈ range n, f i := by
  induction n with
  | zero => simp
  | succ n ih => rw [List.range_succ, List.foldl_append, ih, sum_range_succ]; simp [add_assoc]

theorem evalPoly_eq (A : Matrix ι ι R) {n : Nat} (hn : 0 < n) (p : Nat → R) :
    evalPoly A n p = ∑ i ∈ range n, p i • A ^ i := by
  obtain ⟨m, rfl⟩ : ∃ m, n = m + 1 := ⟨n - 1, by omega⟩
  unfold evalPoly
  rw [foldl_add (fun i => p (i + 1) • powers A (i + 1)), sum_range_succ', add_comm]
  simp [powers_eq]

theorem ev_eq (A : Matrix ι ι R) (r : ι → R) (n : Nat) (p : Nat → R) :
    ev A r n p = (∑ i ∈ range n, p i • A ^ i) *ᵥ r := by
  unfold ev
  rw [sum_mulVec]
  exact sum_congr rfl fun i _ => by rw [smul_mulVec]

theorem poly_comm {A W : Matrix ι ι R} (hc : A * W = W * Aᵀ) (n : Nat) (p : Nat → R) :
    (∑ i ∈ range n, p i • A ^ i) * W = W * ∑ i ∈ range n, p i • Aᵀ ^ i := by
  rw [sum_mul, mul_sum]
  refine sum_congr rfl fun i _ => ?_
  rw [smul_mul_assoc, mul_smul_comm]
  congr 1
  exact (show SemiconjBy W Aᵀ A from hc.symm).pow_right i |>.eq.symm

theorem poly_transpose (A : Matrix ι ι R) (n : Nat) (p : Nat → R) :
    (∑ i ∈ range n, p i • A ^ i)ᵀ = ∑ i ∈ range n, p i • Aᵀ ^ i := by
  rw [transpose_sum]
  exact sum_congr rfl fun i _ => by rw [transpose_smul, transpose_pow]

theorem innerReal_represents {A W : Matrix ι ι R} (hW : Wᵀ = W) (hc : A * W = W * Aᵀ) (r : ι → R) :
    Represents (innerReal A W r) W A r := by
  intro np p nq q hp hq
  unfold innerReal ip
  rw [evalPoly_eq A hp, evalPoly_eq A hq, poly_comm hc, poly_transpose, ev_eq, ev_eq,
    ← mulVec_mulVec, dotProduct_mulVec, ← mulVec_transpose, hW]

end Real

section Hyper

open Hyper Hyper.Spec HermLmi

variable {d m : Nat} [NeZero d]

theorem lmat_powers (hd : d = 1 ∨ d = 2 ∨ d = 4) (A : HMat d m R) (i : Nat) :
    lmat (powersH A i) = lmat A ^ i := by
  induction i with
  | zero => rw [powersH, lmat_identity (dim_of_assoc hd), pow_zero]
  | succ i ih => rw [powersH, lmat_multiply hd, ih, pow_succ']

theorem lmat_evalPoly (hd : d = 1 ∨ d = 2 ∨ d = 4) (A : HMat d m R) {n : Nat} (hn : 0 < n)
    (p : Nat → R) : lmat (evalPolyH A n p) = ∑ i ∈ range n, p i • lmat A ^ i := by
  obtain ⟨k, rfl⟩ : ∃ k, n = k + 1 := ⟨n - 1, by omega⟩
  unfold evalPolyH
  rw [Nat.add_sub_cancel]
  have : ∀ (l : List Nat) (y : HMat d m R), lmat (l.foldl
      (fun y i => Hyper.add y (scalarMultiply (powersH A (i + 1)) (p (i + 1)))) y) =
      l.foldl (fun y i => y + p (i + 1) • lmat A ^ (i + 1)) (lmat y) := by
    intro l
    induction l with
    | nil => exact fun y => rfl
    | cons a l ih =>
      intro y
      rw [List.foldl_cons, List.foldl_cons, ih, lmat_add, lmat_scalar, lmat_powers hd]
  rw [this, foldl_add (fun i => p (i + 1) • lmat A ^ (i + 1)), lmat_scalar, lmat_powers hd,
    sum_range_succ', add_comm]

/-- Matrices as vectors: multiplication from the left. -/
def lift {ι : Type} [DecidableEq ι] (X : Matrix ι ι R) : Matrix (ι × ι) (ι × ι) R := fun a b =>
  if a.2 = b.2 then X a.1 b.1 else 0

/-- A matrix as a vector. -/
def vec {ι : Type} (X : Matrix ι ι R) : ι × ι → R := fun a => X a.1 a.2

section Lift

variable {ι : Type} [Fintype ι] [DecidableEq ι]

theorem lift_vec (X Y : Matrix ι ι R) : lift X *ᵥ vec Y = vec (X * Y) := by
  funext a
  simp only [mulVec, dotProduct, lift, vec, Fintype.sum_prod_type, Matrix.mul_apply]
  refine sum_congr rfl fun i _ => ?_
  rw [sum_eq_single a.2]
  · rw [if_pos rfl]
  · intro b _ hb
    rw [if_neg (Ne.symm hb), zero_mul]
  · simp

theorem lift_transpose (X : Matrix ι ι R) : (lift X)ᵀ = lift Xᵀ := by
  ext a b
  simp only [Matrix.transpose_apply, lift]
  exact if_congr eq_comm rfl rfl

theorem vec_surj (x : ι × ι → R) : ∃ X : Matrix ι ι R, vec X = x := ⟨fun i j => x (i, j), rfl⟩

theorem lift_ext {M N : Matrix (ι × ι) (ι × ι) R}
    (h : ∀ X : Matrix ι ι R, M *ᵥ vec X = N *ᵥ vec X) : M = N := by
  refine Matrix.ext_of_mulVec_single fun q => ?_
  obtain ⟨v, hv⟩ := vec_surj (Pi.single q (1 : R))
  rw [← hv]
  exact h v

theorem lift_mul (X Y : Matrix ι ι R) : lift (X * Y) = lift X * lift Y := by
  refine lift_ext fun Z => ?_
  rw [← mulVec_mulVec, lift_vec, lift_vec, lift_vec, Matrix.mul_assoc]

theorem lift_pow_vec (X Y : Matrix ι ι R) (i : Nat) : lift X ^ i *ᵥ vec Y = vec (X ^ i * Y) := by
  induction i with
  | zero => simp
  | succ i ih => rw [pow_succ', ← mulVec_mulVec, ih, lift_vec, pow_succ', Matrix.mul_assoc]

theorem ev_lift (X : Matrix ι ι R) (n : Nat) (p : Nat → R) :
    ev (lift X) (vec 1) n p = vec (∑ i ∈ range n, p i • X ^ i) := by
  unfold ev
  funext a
  simp only [lift_pow_vec, Matrix.mul_one, Finset.sum_apply, Pi.smul_apply, vec, Matrix.sum_apply,
    Matrix.smul_apply]

theorem vec_dot (X Y : Matrix ι ι R) : vec X ⬝ᵥ vec Y = (Xᵀ * Y).trace := by
  simp only [dotProduct, vec, Fintype.sum_prod_type, Matrix.trace, Matrix.diag, Matrix.mul_apply,
    Matrix.transpose_apply]
  rw [sum_comm]

end Lift

theorem innerHyper_represents [CharZero R] (hd : d = 1 ∨ d = 2 ∨ d = 4) {A W : HMat d m R}
    (hW : (lmat W)ᵀ = lmat W) (hc : lmat A * lmat W = lmat W * (lmat A)ᵀ) :
    Represents (innerHyper A W) ((d : R)⁻¹ • lift (lmat W)) (lift (lmat A)) (vec 1) := by
  intro np p nq q hp hq
  have hd0 : (d : R) ≠ 0 := Nat.cast_ne_zero.2 (NeZero.ne d)
  unfold innerHyper ip
  have h1 : ∀ X : HMat d m R, (X 0).trace = (d : R)⁻¹ * (lmat X).trace := by
    intro X
    rw [trace_lmat (dim_of_assoc hd), ← mul_assoc, inv_mul_cancel₀ hd0, one_mul, retr_zero]
  rw [h1, lmat_multiply hd, lmat_multiply hd, lmat_evalPoly hd A hp, lmat_evalPoly hd A hq,
    lift_transpose, ev_lift, ev_lift, smul_mulVec, smul_dotProduct, smul_eq_mul, lift_vec, vec_dot,
    transpose_mul, hW, Matrix.mul_assoc, poly_comm hc, poly_transpose, transpose_transpose,
    ← Matrix.mul_assoc]

end Hyper

section Results

open MatrixExp.Spec Lmi.Spec Plain.Spec

theorem run_result [IsStrictOrderedRing R] {B : Form R} {W A : Matrix κ κ R} {r : κ → R}
    {sqrt : R → R} {n : Nat} (hcm : ∀ x y, ip W x y = ip W y x) (hB : Represents B W A r)
    (hc : A * W = W * Aᵀ) {q : List R × List R} (h : run B sqrt n = .ok (some q)) :
    Result sqrt A W r q ∧ q.2.length + 1 = n := by
  unfold run at h
  by_cases hn : n = 0
  · rw [if_pos hn] at h
    cases h
  rw [if_neg hn] at h
  by_cases hs : B n one n one ≤ 0
  · simp only [if_pos hs] at h
    cases h
  simp only [if_neg hs] at h
  obtain ⟨⟨l, vn⟩, h1, rfl⟩ := Option.map_eq_some_iff.1 (Outcome.ok.inj h)
  obtain ⟨h2, h3⟩ := loop_polyRun _ _ _ _ _ _ h1
  exact ⟨finish_result hcm hB hc (by omega) (not_le.1 hs) (by omega) h2, by simp [finish, h3]; omega⟩

theorem runH_result [IsStrictOrderedRing R] {B : Form R} {W A : Matrix κ κ R} {r : κ → R}
    {sqrt : R → R} {n : Nat} (hcm : ∀ x y, ip W x y = ip W y x) (hB : Represents B W A r)
    (hc : A * W = W * Aᵀ) {q : List R × List R} (h : runH B sqrt n = .ok (some q)) :
    Result sqrt A W r q := by
  unfold runH at h
  by_cases hn : n = 0
  · rw [if_pos hn] at h
    cases h
  rw [if_neg hn] at h
  by_cases hs : B n one n one ≤ 0
  · simp only [if_pos hs] at h
    cases h
  simp only [if_neg hs] at h
  obtain rfl := Option.some.inj (Outcome.ok.inj h)
  obtain ⟨h2, h3⟩ := loopH_polyRun (B := B) (sqrt := sqrt) (n := n) (n - 1)
    (fun i => one i / sqrt (B n one n one)) (fun _ => 0) (sqrt (B n one n one))
  exact finish_result hcm hB hc (by omega) (not_le.1 hs) (by omega) h2

theorem bind_some {o : Outcome (Option (List R × List R))} {f : List R × List R → List R} {l : List R}
    (h : (do let q ← o; return q.map f) = Outcome.ok (some l)) : ∃ q, o = .ok (some q) ∧ l = f q := by
  cases o with
  | ok o =>
    obtain ⟨q, h1, h2⟩ := Option.map_eq_some_iff.1 (Outcome.ok.inj h)
    exact ⟨q, by rw [h1], h2.symm⟩
  | throws => cases h
  | ub => cases h
  | diverges => cases h

/-- With as many vectors as dimensions the small matrix has the same eigenvalues. -/
theorem chain_exact {W T : Matrix κ κ R} (hc : ∀ x y, ip W x y = ip W y x)
    (ha : ∀ x y, ip W x (T *ᵥ y) = ip W (T *ᵥ x) y) {m : Nat} {v : Nat → κ → R} {a b : Nat → R}
    (h : Chain W T m v a b) {N : Nat} (hN : N = m + 1) (hcard : Fintype.card κ = N)
    (J : Matrix (Fin N) (Fin N) R) (hJ : ∀ i j : Fin N, ip W (v i) (T *ᵥ v j) = J i j) (t : R) :
    Eigenvalue J t ↔ Eigenvalue T t := by
  set P : Matrix κ (Fin N) R := fun i j => v j i with hP
  have hcol : ∀ X : Matrix κ κ R, ∀ i j : Fin N,
      ((W * P)ᵀ * (X * P)) i j = ip W (v i) (X *ᵥ v j) := by
    intro X i j
    rw [Matrix.mul_apply]
    rfl
  have h1 : (W * P)ᵀ * P = 1 := by
    ext i j
    have := hcol 1 i j
    rw [Matrix.one_mul, one_mulVec] at this
    rw [this, Matrix.one_apply]
    rcases Nat.lt_trichotomy i.1 j.1 with hij | hij | hij
    · rw [h.orth hc ha j (by omega) i hij, if_neg (fun e => by rw [e] at hij; omega)]
    · obtain rfl := Fin.ext hij
      rw [if_pos rfl, h.norm _ (by omega)]
    · rw [hc, h.orth hc ha i (by omega) j hij, if_neg (fun e => by rw [e] at hij; omega)]
  have h2 : P * (W * P)ᵀ = 1 :=
    (Matrix.mul_eq_one_comm_of_card_eq _ _ _ (by simp [hcard])).1 h1
  have h3 : (W * P)ᵀ * (T * P) = J := by
    ext i j
    rw [hcol, hJ]
  constructor
  · rintro ⟨y, hy, he⟩
    refine ⟨P *ᵥ y, fun e => hy ?_, ?_⟩
    · have := congrArg (fun z => (W * P)ᵀ *ᵥ z) e
      simp only [mulVec_mulVec, h1, one_mulVec, mulVec_zero] at this
      exact this
    · rw [← h3] at he
      have := congrArg (fun z => P *ᵥ z) he
      simp only [mulVec_mulVec, mulVec_smul] at this
      rw [← Matrix.mul_assoc, h2, Matrix.one_mul] at this
      rw [mulVec_mulVec, this]
  · rintro ⟨u, hu, he⟩
    have h4 : P *ᵥ ((W * P)ᵀ *ᵥ u) = u := by rw [mulVec_mulVec, h2, one_mulVec]
    refine ⟨(W * P)ᵀ *ᵥ u, fun e => hu ?_, ?_⟩
    · rw [← h4, e, mulVec_zero]
    · rw [← h3, ← mulVec_mulVec, ← mulVec_mulVec, h4, he, mulVec_smul]

theorem eigenvalue_transpose (A : Matrix κ κ R) (t : R) : Eigenvalue Aᵀ t ↔ Eigenvalue A t := by
  have : ∀ X : Matrix κ κ R, Eigenvalue X t ↔ (X - t • 1).det = 0 := by
    intro X
    rw [← Matrix.exists_mulVec_eq_zero_iff]
    refine exists_congr fun v => and_congr_right fun _ => ?_
    rw [sub_mulVec, smul_mulVec, one_mulVec, sub_eq_zero]
  rw [this, this, ← det_transpose]
  simp

theorem result_exact [IsStrictOrderedRing R] {sqrt : R → R} (hsq : ∀ x, 0 < x → SqrtAt sqrt x)
    {W S : Matrix κ κ R} (hW : Wᵀ = W) (hS : Sᵀ = S) {r : κ → R} {q : List R × List R}
    (h : Result sqrt (W * S) W r q) (hq : q.2.length + 1 = Fintype.card κ) (t : R) :
    q.1.length = q.2.length + 1 ∧
      (Eigenvalue (jacobi q.1 q.2) t ↔ Eigenvalue (W * S) t) := by
  have hc : W * S * W = W * (W * S)ᵀ := by
    rw [transpose_mul, hW, hS, Matrix.mul_assoc]
  obtain ⟨v, a, b, hl, hch, h1, h2⟩ := lanczos_chain hsq hc h
  have hcm := Lanczos.ip_comm hW
  have hadj := Lanczos.ip_adjoint hW hS
  refine ⟨hl, ?_⟩
  rw [chain_exact hcm hadj hch hl (by omega) (jacobi q.1 q.2) ?_ t, eigenvalue_transpose]
  intro i j
  rw [hch.tri hcm hadj (by omega) (by omega)]
  unfold jacobi
  by_cases hij : i = j
  · subst hij
    rw [if_pos rfl, if_pos rfl, h1 _ (by omega)]
  · have hij' : i.1 ≠ j.1 := fun e => hij (Fin.ext e)
    rw [if_neg hij', if_neg hij]
    split_ifs with h3 h4
    · rw [h2 _ (by omega)]
    · rw [h2 _ (by omega)]
    · rfl

theorem lift_form (X : Matrix κ κ R) (x : κ × κ → R) :
    x ⬝ᵥ (lift X *ᵥ x) = ∑ j, (fun i => x (i, j)) ⬝ᵥ (X *ᵥ fun i => x (i, j)) := by
  obtain ⟨Y, rfl⟩ := vec_surj x
  rw [lift_vec, dotProduct, Fintype.sum_prod_type, sum_comm]
  rfl

theorem lift_posDef {X : Matrix κ κ ℝ} (h : X.PosDef) : (lift X).PosDef := by
  rw [Matrix.posDef_iff_dotProduct_mulVec] at h ⊢
  refine ⟨?_, fun x hx => ?_⟩
  · rw [Matrix.IsHermitian, conjTranspose_eq_transpose_of_trivial, lift_transpose]
    have := h.1
    rw [Matrix.IsHermitian, conjTranspose_eq_transpose_of_trivial] at this
    rw [this]
  · rw [star_trivial, lift_form]
    obtain ⟨a, ha⟩ := Function.ne_iff.1 hx
    have hp : ∀ j, 0 ≤ (fun i => x (i, j)) ⬝ᵥ (X *ᵥ fun i => x (i, j)) := by
      intro j
      by_cases h0 : (fun i => x (i, j)) = 0
      · rw [h0, zero_dotProduct]
      · have := h.2 h0
        rw [star_trivial] at this
        exact this.le
    refine sum_pos' (fun j _ => hp j) ⟨a.2, mem_univ _, ?_⟩
    have := h.2 (x := fun i => x (i, a.2)) fun e => ha (congrFun e a.1)
    rwa [star_trivial] at this

theorem eigenvalue_lift {X : Matrix κ κ R} {t : R} (h : Eigenvalue (lift X) t) : Eigenvalue X t := by
  obtain ⟨x, hx, he⟩ := h
  obtain ⟨Y, rfl⟩ := vec_surj x
  rw [lift_vec] at he
  obtain ⟨a, ha⟩ := Function.ne_iff.1 hx
  refine ⟨fun i => Y i a.2, fun e => ha (congrFun e a.1), ?_⟩
  funext i
  exact congrFun he (i, a.2)

end Results

end Verif.JacobiPoly
