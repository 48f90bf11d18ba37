import Mathlib.Algebra.Order.Field.Basic
import Mathlib.Algebra.BigOperators.Field
import Mathlib.Tactic.Module
import Mathlib.Tactic.Linarith
import Verif.Spec.Lmi
import Verif.Spec.Solve

/-!
# Lemmas on approximate eigenvalues
-/

namespace Verif.Lanczos

open Matrix Finset

variable {R : Type} [Field R] [LinearOrder R] {ι : Type} [Fintype ι]

/-- The inner product of the recurrence. -/
def ip (W : Matrix ι ι R) (x y : ι → R) : R := (W *ᵥ x) ⬝ᵥ y

/-- Sequences that satisfy the recurrence. -/
structure Chain (W T : Matrix ι ι R) (m : Nat) (v : Nat → ι → R) (a b : Nat → R) : Prop where
  norm : ∀ j ≤ m, ip W (v j) (v j) = 1
  diag : ∀ j ≤ m, a j = ip W (v j) (T *ᵥ v j)
  ne : ∀ j < m, b j ≠ 0
  first : 0 < m → b 0 • v 1 = T *ᵥ v 0 - a 0 • v 0
  step : ∀ j, j + 1 < m → b (j + 1) • v (j + 2) = T *ᵥ v (j + 1) - a (j + 1) • v (j + 1) - b j • v j

theorem ip_comm {W : Matrix ι ι R} (hW : Wᵀ = W) (x y : ι → R) : ip W x y = ip W y x := by
  unfold ip
  rw [dotProduct_comm, dotProduct_mulVec, ← mulVec_transpose, hW]

theorem ip_sub_right (W : Matrix ι ι R) (x y z : ι → R) : ip W x (y - z) = ip W x y - ip W x z :=
  dotProduct_sub _ _ _

theorem ip_add_right (W : Matrix ι ι R) (x y z : ι → R) : ip W x (y + z) = ip W x y + ip W x z :=
  dotProduct_add _ _ _

theorem ip_smul_right (W : Matrix ι ι R) (x y : ι → R) (c : R) : ip W x (c • y) = c * ip W x y :=
  dotProduct_smul _ _ _

theorem ip_smul_left (W : Matrix ι ι R) (x y : ι → R) (c : R) : ip W (c • x) y = c * ip W x y := by
  unfold ip
  rw [mulVec_smul, smul_dotProduct, smul_eq_mul]

theorem ip_sum_right (W : Matrix ι ι R) (x : ι → R) {κ : Type} (s : Finset κ) (f : κ → ι → R) :
    ip W x (∑ i ∈ s, f i) = ∑ i ∈ s, ip W x (f i) :=
  dotProduct_sum _ _ _

theorem ip_sum_left (W : Matrix ι ι R) (y : ι → R) {κ : Type} (s : Finset κ) (f : κ → ι → R) :
    ip W (∑ i ∈ s, f i) y = ∑ i ∈ s, ip W (f i) y := by
  unfold ip
  rw [mulVec_sum, sum_dotProduct]

/-- The operator is self-adjoint. -/
theorem ip_adjoint {W S : Matrix ι ι R} (hW : Wᵀ = W) (hS : Sᵀ = S) (x y : ι → R) :
    ip W x ((W * S)ᵀ *ᵥ y) = ip W ((W * S)ᵀ *ᵥ x) y := by
  have : ∀ z, (W * S)ᵀ *ᵥ z = S *ᵥ (W *ᵥ z) := by
    intro z
    rw [transpose_mul, hW, hS, mulVec_mulVec]
  unfold ip
  rw [this, this, dotProduct_mulVec, ← mulVec_transpose, hS, dotProduct_mulVec, ← mulVec_transpose, hW]

section Orth

variable {W T : Matrix ι ι R} (hc : ∀ x y, ip W x y = ip W y x)
  (ha : ∀ x y, ip W x (T *ᵥ y) = ip W (T *ᵥ x) y) {m : Nat} {v : Nat → ι → R} {a b : Nat → R}

include hc ha

/-- The vectors of the recurrence are orthogonal. -/
theorem Chain.orth (h : Chain W T m v a b) : ∀ j ≤ m, ∀ i < j, ip W (v i) (v j) = 0 := by
  intro j
  induction j using Nat.strong_induction_on with
  | _ j ih =>
    intro hj i hi
    -- images of earlier vectors
    match j with
    | 0 => omega
    | 1 =>
      obtain rfl : i = 0 := by omega
      have e := h.first (by omega)
      have : b 0 * ip W (v 0) (v 1) = 0 := by
        rw [← ip_smul_right, e, ip_sub_right, ip_smul_right, h.norm 0 (by omega), ← h.diag 0 (by omega)]
        ring
      exact (mul_eq_zero.1 this).resolve_left (h.ne 0 (by omega))
    | j + 2 =>
      have e := h.step j (by omega)
      have key : b (j + 1) * ip W (v i) (v (j + 2)) =
          ip W (v i) (T *ᵥ v (j + 1)) - a (j + 1) * ip W (v i) (v (j + 1)) -
            b j * ip W (v i) (v j) := by
        rw [← ip_smul_right, e, ip_sub_right, ip_sub_right, ip_smul_right, ip_smul_right]
      have hz : b (j + 1) * ip W (v i) (v (j + 2)) = 0 := by
        rw [key]
        rcases Nat.lt_trichotomy i j with hij | hij | hij
        · -- far away
          have h1 : ip W (v i) (v (j + 1)) = 0 := ih (j + 1) (by omega) (by omega) i (by omega)
          have h2 : ip W (v i) (v j) = 0 := ih j (by omega) (by omega) i hij
          have h3 : ip W (T *ᵥ v i) (v (j + 1)) = 0 := by
            match i with
            | 0 =>
              have e0 := h.first (by omega)
              have : T *ᵥ v 0 = b 0 • v 1 + a 0 • v 0 := by rw [e0]; abel
              rw [this, hc, ip_add_right, ip_smul_right, ip_smul_right, hc _ (v 1), hc _ (v 0),
                ih (j + 1) (by omega) (by omega) 1 (by omega), h1]
              ring
            | i + 1 =>
              have e0 := h.step i (by omega)
              have : T *ᵥ v (i + 1) = b (i + 1) • v (i + 2) + a (i + 1) • v (i + 1) + b i • v i := by
                rw [e0]; abel
              rw [this, hc, ip_add_right, ip_add_right, ip_smul_right, ip_smul_right, ip_smul_right,
                hc _ (v (i + 2)), hc _ (v (i + 1)), hc _ (v i),
                ih (j + 1) (by omega) (by omega) (i + 2) (by omega), h1,
                ih (j + 1) (by omega) (by omega) i (by omega)]
              ring
          rw [ha, h1, h2, h3]
          ring
        · subst hij
          have h1 : ip W (v i) (v (i + 1)) = 0 := ih (i + 1) (by omega) (by omega) i (by omega)
          have h3 : ip W (T *ᵥ v i) (v (i + 1)) = b i := by
            match i with
            | 0 =>
              have e0 := h.first (by omega)
              have : T *ᵥ v 0 = b 0 • v 1 + a 0 • v 0 := by rw [e0]; abel
              rw [this, hc, ip_add_right, ip_smul_right, ip_smul_right, h.norm 1 (by omega),
                hc _ (v 0), h1]
              ring
            | i + 1 =>
              have e0 := h.step i (by omega)
              have : T *ᵥ v (i + 1) = b (i + 1) • v (i + 2) + a (i + 1) • v (i + 1) + b i • v i := by
                rw [e0]; abel
              rw [this, hc, ip_add_right, ip_add_right, ip_smul_right, ip_smul_right, ip_smul_right,
                h.norm (i + 2) (by omega), hc _ (v (i + 1)), hc _ (v i), h1,
                ih (i + 2) (by omega) (by omega) i (by omega)]
              ring
          rw [ha, h1, h3, h.norm i (by omega)]
          ring
        · obtain rfl : i = j + 1 := by omega
          rw [← h.diag (j + 1) (by omega), h.norm (j + 1) (by omega), hc,
            ih (j + 1) (by omega) (by omega) j (by omega)]
          ring
      exact (mul_eq_zero.1 hz).resolve_left (h.ne (j + 1) (by omega))

/-- The coefficients of the tridiagonal matrix. -/
theorem Chain.tri (h : Chain W T m v a b) {i j : Nat} (hi : i ≤ m) (hj : j ≤ m) :
    ip W (v i) (T *ᵥ v j) =
      if i = j then a i else if i + 1 = j then b i else if j + 1 = i then b j else 0 := by
  have hlt : ∀ i j, i < j → j ≤ m → ip W (v i) (T *ᵥ v j) = if i + 1 = j then b i else 0 := by
    intro i j hij hj
    rw [ha]
    have hT : ip W (T *ᵥ v i) (v j) = b i * ip W (v (i + 1)) (v j) := by
      match i with
      | 0 =>
        have e0 := h.first (by omega)
        have : T *ᵥ v 0 = b 0 • v 1 + a 0 • v 0 := by rw [e0]; abel
        rw [this, hc, ip_add_right, ip_smul_right, ip_smul_right, hc _ (v 0),
          h.orth hc ha j hj 0 hij, hc _ (v 1)]
        ring
      | i + 1 =>
        have e0 := h.step i (by omega)
        have : T *ᵥ v (i + 1) = b (i + 1) • v (i + 2) + a (i + 1) • v (i + 1) + b i • v i := by
          rw [e0]; abel
        rw [this, hc, ip_add_right, ip_add_right, ip_smul_right, ip_smul_right, ip_smul_right,
          hc _ (v (i + 1)), hc _ (v i), h.orth hc ha j hj (i + 1) hij, h.orth hc ha j hj i (by omega),
          hc _ (v (i + 1 + 1))]
        ring
    rw [hT]
    split_ifs with hs
    · subst hs
      rw [h.norm _ hj, mul_one]
    · rw [h.orth hc ha j hj (i + 1) (by omega), mul_zero]
  rcases Nat.lt_trichotomy i j with hij | hij | hij
  · rw [hlt i j hij hj, if_neg (by omega : ¬i = j), if_neg (by omega : ¬j + 1 = i)]
  · subst hij
    rw [if_pos rfl, ← h.diag i hi]
  · rw [ha, hc, hlt j i hij hi, if_neg (by omega : ¬i = j), if_neg (by omega : ¬i + 1 = j)]

end Orth

section Loop

variable [IsStrictOrderedRing R]

open SolveLoop.Spec

variable {sqrt : R → R} {WS W : Matrix ι ι R}

theorem inner_ip {V : Pair ι R} (h : V.c0 = W *ᵥ V.c1) (U : Pair ι R) :
    inner V U = ip W V.c1 U.c1 := by
  unfold inner ip
  rw [h]

theorem divBy_c1 (V : Pair ι R) (c : R) : (divBy V c).c1 = c⁻¹ • V.c1 := by
  funext i
  simp [divBy, div_eq_inv_mul]

theorem divBy_good {V : Pair ι R} (h : V.c0 = W *ᵥ V.c1) (c : R) :
    (divBy V c).c0 = W *ᵥ (divBy V c).c1 := by
  rw [divBy_c1, mulVec_smul, ← h]
  funext i
  simp [divBy, div_eq_inv_mul]

theorem subSmul_good {V U : Pair ι R} (hV : V.c0 = W *ᵥ V.c1) (hU : U.c0 = W *ᵥ U.c1) (c : R) :
    (subSmul V c U).c0 = W *ᵥ (subSmul V c U).c1 := by
  simp only [subSmul, mulVec_sub, mulVec_smul, ← hV, ← hU]

theorem apply_good (hc : WS * W = W * WSᵀ) {V : Pair ι R} (hV : V.c0 = W *ᵥ V.c1) :
    (apply WS V).c0 = W *ᵥ (apply WS V).c1 := by
  simp only [apply, hV, mulVec_mulVec, hc]

/-- Coefficients that the recurrence produces, wherever it stops. -/
inductive Run (sqrt : R → R) (WS : Matrix ι ι R) : Pair ι R → Pair ι R → List (R × R) → Prop
  | stop (V U : Pair ι R) : Run sqrt WS V U []
  | step (V U : Pair ι R) (l : List (R × R)) (hpos : 0 < inner U U)
      (h : Run sqrt WS (divBy U (sqrt (inner U U)))
        (subSmul (subSmul (apply WS (divBy U (sqrt (inner U U))))
          (inner (divBy U (sqrt (inner U U))) (apply WS (divBy U (sqrt (inner U U)))))
          (divBy U (sqrt (inner U U)))) (sqrt (inner U U)) V) l) :
      Run sqrt WS V U ((sqrt (inner U U),
        inner (divBy U (sqrt (inner U U))) (apply WS (divBy U (sqrt (inner U U))))) :: l)

theorem loop_run : ∀ (k : Nat) (V U : Pair ι R), Run sqrt WS V U (loop sqrt WS k V U) := by
  intro k
  induction k with
  | zero => exact fun V U => Run.stop V U
  | succ k ih =>
    intro V U
    rw [loop]
    split_ifs with hs
    · exact Run.stop V U
    · have hpos : 0 < inner U U := by
        have : (0 : R) < 1 / 10 ^ 6 := by positivity
        linarith
      exact Run.step V U _ hpos (ih _ _)

/-- A diagonal and an off-diagonal that the recurrence produces from the start vector `r`. -/
def Result (sqrt : R → R) (WS W : Matrix ι ι R) (r : ι → R) (q : List R × List R) : Prop :=
  0 < inner (⟨W *ᵥ r, r⟩ : Pair ι R) ⟨W *ᵥ r, r⟩ ∧
    let V := divBy (⟨W *ᵥ r, r⟩ : Pair ι R) (sqrt (inner (⟨W *ᵥ r, r⟩ : Pair ι R) ⟨W *ᵥ r, r⟩))
    ∃ l, Run sqrt WS V (subSmul (apply WS V) (inner V (apply WS V)) V) l ∧
      q = (inner V (apply WS V) :: l.map Prod.snd, l.map Prod.fst)

theorem lanczos_result {r : ι → R} {iters : Nat} {q : List R × List R}
    (h : lanczos sqrt WS W r iters = some q) : Result sqrt WS W r q := by
  unfold lanczos at h
  simp only at h
  split_ifs at h with h0
  exact ⟨not_le.1 h0, _, loop_run _ _ _, (Option.some.inj h).symm⟩

/-- The loop continues a chain. -/
theorem run_chain (hsq : ∀ x, 0 < x → SqrtAt sqrt x) (hc : WS * W = W * WSᵀ) :
    ∀ (V U : Pair ι R) (l : List (R × R)), Run sqrt WS V U l → ∀ a0 : R, V.c0 = W *ᵥ V.c1 →
      U.c0 = W *ᵥ U.c1 → ip W V.c1 V.c1 = 1 →
      ∃ (v : Nat → ι → R) (a b : Nat → R), v 0 = V.c1 ∧ a 0 = a0 ∧
        (∀ j < l.length, l[j]? = some (b j, a (j + 1))) ∧
        (∀ j ≤ l.length, ip W (v j) (v j) = 1) ∧
        (∀ j < l.length, a (j + 1) = ip W (v (j + 1)) (WSᵀ *ᵥ v (j + 1))) ∧
        (∀ j < l.length, b j ≠ 0) ∧
        (0 < l.length → b 0 • v 1 = U.c1) ∧
        (∀ j, j + 1 < l.length →
          b (j + 1) • v (j + 2) = WSᵀ *ᵥ v (j + 1) - a (j + 1) • v (j + 1) - b j • v j) := by
  intro V U l hrun
  induction hrun with
  | stop V U =>
    intro a0 hV hU hn
    refine ⟨fun _ => V.c1, fun _ => a0, fun _ => 0, rfl, rfl, ?_⟩
    simp [hn]
  | step V U l hpos hrun ih =>
    intro a0 hV hU hn
    obtain ⟨hb0, hb2⟩ := hsq _ hpos
    set beta := sqrt (inner U U) with hbeta
    have hbne : beta ≠ 0 := by
      intro h0
      rw [h0, mul_zero] at hb2
      exact hpos.ne hb2
    have hV' := divBy_good hU beta
    have hn' : ip W (divBy U beta).c1 (divBy U beta).c1 = 1 := by
      rw [divBy_c1, ip_smul_right, ip_smul_left, ← inner_ip hU, ← hb2]
      field_simp
    set V' := divBy U beta with hVd
    set alpha := inner V' (apply WS V') with halpha
    have hU' := subSmul_good (subSmul_good (apply_good hc hV') hV' alpha) hV beta
    set U' := subSmul (subSmul (apply WS V') alpha V') beta V with hUd
    obtain ⟨v, a, b, h1, h2, h3, h4, h5, h6, h7, h8⟩ := ih alpha hV' hU' hn'
    refine ⟨fun j => if j = 0 then V.c1 else v (j - 1), fun j => if j = 0 then a0 else a (j - 1),
      fun j => if j = 0 then beta else b (j - 1), rfl, rfl, ?_, ?_, ?_, ?_, ?_, ?_⟩
    · intro j hj
      match j with
      | 0 => simp [h2]
      | j + 1 =>
        have := h3 j (by simpa using hj)
        simp [this]
    · intro j hj
      match j with
      | 0 => simpa using hn
      | j + 1 => simpa using h4 j (by simpa using hj)
    · intro j hj
      match j with
      | 0 =>
        simp only [Nat.zero_add, Nat.one_ne_zero, ↓reduceIte, Nat.sub_self, h1, h2, halpha]
        rw [inner_ip hV']
        rfl
      | j + 1 => simpa using h5 j (by simpa using hj)
    · intro j hj
      match j with
      | 0 => simpa using hbne
      | j + 1 => simpa using h6 j (by simpa using hj)
    · intro _
      simp only [↓reduceIte, Nat.one_ne_zero, Nat.sub_self, h1, hVd, divBy_c1, smul_smul]
      rw [mul_inv_cancel₀ hbne, one_smul]
    · intro j hj
      match j with
      | 0 =>
        have := h7 (by simpa using hj)
        simp only [Nat.zero_add, Nat.one_ne_zero, ↓reduceIte, Nat.sub_self, h1, h2,
          Nat.add_one_sub_one, Nat.reduceSub, Nat.add_eq_zero_iff, OfNat.ofNat_ne_zero]
        rw [this]
        rfl
      | j + 1 =>
        have := h8 j (by simpa using hj)
        simpa using this

/-- The result of the recurrence comes from a chain that starts with a multiple of `r`. -/
theorem lanczos_chain_start (hsq : ∀ x, 0 < x → SqrtAt sqrt x) (hc : WS * W = W * WSᵀ) {r : ι → R}
    {q : List R × List R} (h : Result sqrt WS W r q) :
    ∃ (v : Nat → ι → R) (a b : Nat → R), (∃ s : R, v 0 = s • r) ∧ q.1.length = q.2.length + 1 ∧
      Chain W WSᵀ q.2.length v a b ∧ (∀ j ≤ q.2.length, q.1.getD j 0 = a j) ∧
      (∀ j < q.2.length, q.2.getD j 0 = b j) := by
  obtain ⟨hpos, l, hrun, rfl⟩ := h
  obtain ⟨hb0, hb2⟩ := hsq _ hpos
  set V : Pair ι R := ⟨W *ᵥ r, r⟩ with hVd
  have hV : V.c0 = W *ᵥ V.c1 := rfl
  set beta := sqrt (inner V V)
  have hbne : beta ≠ 0 := by
    intro h0
    rw [h0, mul_zero] at hb2
    exact hpos.ne hb2
  have hV' := divBy_good hV beta
  have hn' : ip W (divBy V beta).c1 (divBy V beta).c1 = 1 := by
    rw [divBy_c1, ip_smul_right, ip_smul_left, ← inner_ip hV, ← hb2]
    field_simp
  have hV1 : (divBy V beta).c1 = beta⁻¹ • r := divBy_c1 V beta
  set V' := divBy V beta
  set alpha := inner V' (apply WS V') with halpha
  have hU' := subSmul_good (apply_good hc hV') hV' alpha
  set U' := subSmul (apply WS V') alpha V' with hUd
  obtain ⟨v, a, b, h1, h2, h3, h4, h5, h6, h7, h8⟩ :=
    run_chain hsq hc V' U' l hrun alpha hV' hU' hn'
  refine ⟨v, a, b, ⟨beta⁻¹, by rw [h1, hV1]⟩, by simp, ?_, ?_, ?_⟩
  · simp only [List.length_map]
    refine ⟨h4, ?_, h6, ?_, h8⟩
    · intro j hj
      match j with
      | 0 =>
        rw [h1, h2, halpha, inner_ip hV']
        rfl
      | j + 1 => exact h5 j hj
    · intro hm
      rw [h7 hm, h1, h2]
      rfl
  · intro j hj
    match j with
    | 0 => simp [h2]
    | j + 1 =>
      have := h3 j (by simpa using hj)
      simp [List.getD_eq_getElem?_getD, this]
  · intro j hj
    have := h3 j (by simpa using hj)
    simp [List.getD_eq_getElem?_getD, this]

/-- The result of the recurrence comes from a chain. -/
theorem lanczos_chain (hsq : ∀ x, 0 < x → SqrtAt sqrt x) (hc : WS * W = W * WSᵀ) {r : ι → R}
    {q : List R × List R} (h : Result sqrt WS W r q) :
    ∃ (v : Nat → ι → R) (a b : Nat → R), q.1.length = q.2.length + 1 ∧
      Chain W WSᵀ q.2.length v a b ∧ (∀ j ≤ q.2.length, q.1.getD j 0 = a j) ∧
      (∀ j < q.2.length, q.2.getD j 0 = b j) := by
  obtain ⟨v, a, b, -, h⟩ := lanczos_chain_start hsq hc h
  exact ⟨v, a, b, h⟩

end Loop

section Ritz

open Lmi.Spec MatrixExp.Spec

variable [IsStrictOrderedRing R] {W T : Matrix ι ι R} (hc : ∀ x y, ip W x y = ip W y x)
  (ha : ∀ x y, ip W x (T *ᵥ y) = ip W (T *ᵥ x) y)

include hc ha

/-- Eigenvalues of the tridiagonal matrix are Rayleigh quotients. -/
theorem Chain.ritz {v : Nat → ι → R} {a b : Nat → R} {q : List R × List R}
    (h : Chain W T q.2.length v a b) (hl : q.1.length = q.2.length + 1)
    (h1 : ∀ j ≤ q.2.length, q.1.getD j 0 = a j) (h2 : ∀ j < q.2.length, q.2.getD j 0 = b j) {t : R}
    (ht : Eigenvalue (jacobi q.1 q.2) t) :
    ∃ z, 0 < ip W z z ∧ ip W z (T *ᵥ z) = t * ip W z z := by
  obtain ⟨x, hx, he⟩ := ht
  have hv : ∀ i j : Fin q.1.length, ip W (v i) (v j) = if i = j then 1 else 0 := by
    intro i j
    rcases Nat.lt_trichotomy i.1 j.1 with hij | hij | hij
    · rw [h.orth hc ha j (by omega) i hij, if_neg (fun e => by rw [e] at hij; omega)]
    · obtain rfl := Fin.ext hij
      rw [if_pos rfl, h.norm _ (by omega)]
    · rw [hc, h.orth hc ha i (by omega) j hij, if_neg (fun e => by rw [e] at hij; omega)]
  have hT : ∀ i j : Fin q.1.length, ip W (v i) (T *ᵥ v j) = jacobi q.1 q.2 i j := by
    intro i j
    rw [h.tri hc ha (by omega) (by omega)]
    unfold jacobi
    by_cases hij : i = j
    · subst hij
      simp only [↓reduceIte]
      rw [h1 _ (by omega)]
    · rw [if_neg hij, if_neg (fun e => hij (Fin.ext e))]
      split_ifs with e1 e2
      · rw [h2 _ (by omega)]
      · rw [h2 _ (by omega)]
      · rfl
  refine ⟨∑ i : Fin q.1.length, x i • v i, ?_, ?_⟩
  · have : ip W (∑ i : Fin q.1.length, x i • v i) (∑ i : Fin q.1.length, x i • v i) =
        ∑ i : Fin q.1.length, x i * x i := by
      simp only [ip_sum_left, ip_sum_right, ip_smul_left, ip_smul_right, hv]
      refine sum_congr rfl fun i _ => ?_
      simp [mul_comm]
    rw [this]
    obtain ⟨i, hi⟩ := Function.ne_iff.1 hx
    exact sum_pos' (fun i _ => mul_self_nonneg _) ⟨i, mem_univ i, mul_self_pos.2 hi⟩
  · rw [mulVec_sum]
    simp only [mulVec_smul, ip_sum_left, ip_sum_right, ip_smul_left, ip_smul_right, hv, hT]
    rw [mul_sum]
    refine sum_congr rfl fun i _ => ?_
    simp only [mul_ite, mul_one, mul_zero, sum_ite_eq', mem_univ, ite_true]
    have hs : ∀ j, jacobi q.1 q.2 j i = jacobi q.1 q.2 i j := by
      intro j
      rw [← hT, ← hT, ha, hc]
    simp only [hs]
    have := congrFun he i
    simp only [mulVec, dotProduct, Pi.smul_apply, smul_eq_mul] at this
    have e : ∑ j : Fin q.1.length, x j * jacobi q.1 q.2 i j = t * x i := by
      rw [← this]
      exact sum_congr rfl fun j _ => mul_comm _ _
    rw [e]
    ring

end Ritz

end Verif.Lanczos
