import Verif.Lemmas.MatrixCentering
import Verif.Lemmas.ConeDivergence

/-!
# Lemmas for C96: the divergence of a program with matrix inequalities
-/

namespace Verif.MatrixCentering

open Finset Matrix Verif.Dual Gap Gap.Spec
open Whole.Spec (nth)
open Whole (nth_mem nth_of nth_get entries_nth sum_list Search itemSlack slackEntries joinSlack divergenceMu factor_solves NoCosts)

/-! ### One constraint -/

/-- The squared norm of `k` times a slack minus one, in terms of the squared norm `F` and the trace `T` of the slack. -/
def sqGap (F T r k : ℝ) : ℝ := k * k * F - 2 * k * T + r

/-- What is shown of the data of the divergence of a constraint. -/
structure ItemSlack (v : Env ℝ) (x : Item ℝ) (len : Nat) (c : ℝ) (z : Nat → ℝ) (F T : ℝ) (e : Option (ℝ × ℝ)) : Prop where
  slack : itemSlack v c len z x = .ok (F, T, e)
  nonneg : ∀ k, 0 ≤ sqGap F T x.rank k
  inner : ∀ a b, e = some (a, b) → a ≤ b ∧ ∀ k, (k * a - 1) ^ 2 ≤ sqGap F T x.rank k ∧ (k * b - 1) ^ 2 ≤ sqGap F T x.rank k
  found : 0 < x.rank → ∀ k, sqGap F T x.rank k < 1 → ∃ a b, e = some (a, b)
  length : ∀ (k : ℝ) (y : Nat → ℝ) (x' : Item ℝ) (n : Option ℝ) (b : ℝ) (s₀ s s₀' s' : Schur.Sys ℝ),
    x.prepareStep v (k * c) len y = .ok (x', n, b) → s₀.rows = len → x.schur v.sqrt s₀ = .ok s →
    s₀'.rows = len → x.schur v.sqrt s₀' = .ok s' →
    b = sqGap F T x.rank k + ∑ j ∈ range len, (y j - k * z j) *
      (res s len (k * c) y j + k * (res s' len c z j - res s' len 0 (fun _ => 0) j))

/-- The difference of the squared lengths of two scaled slacks. -/
theorem trace_shift {ι : Type} [Fintype ι] [DecidableEq ι] {A : Nat → Matrix ι ι ℝ} {C W : Matrix ι ι ℝ} {m : Nat}
    {s s' : Schur.Sys ℝ} {δ : ℝ}
    (hG : ∀ i < m, ∀ j ≤ i, δ * s.G i j = (A i * (W * A j * W)).trace)
    (hAW : ∀ i < m, δ * s.AW i = (A i * W).trace)
    (hAQc : ∀ i < m, δ * s.AQc i = (A i * (W * C * W)).trace)
    (hG' : ∀ i < m, ∀ j ≤ i, δ * s'.G i j = (A i * (W * A j * W)).trace)
    (hAW' : ∀ i < m, δ * s'.AW i = (A i * W).trace)
    (hAQc' : ∀ i < m, δ * s'.AQc i = (A i * (W * C * W)).trace) {k c : ℝ} {y z : Nat → ℝ} {S S₁ : Matrix ι ι ℝ}
    (hS : S = (k * c) • C - ∑ j ∈ range m, y j • A j) (hS₁ : S₁ = c • C - ∑ j ∈ range m, z j • A j) :
    (W * S * (W * S)).trace - 2 * (W * S).trace = k * k * (W * S₁ * (W * S₁)).trace - 2 * k * (W * S₁).trace +
      δ * ∑ j ∈ range m, (y j - k * z j) *
        (res s m (k * c) y j + k * (res s' m c z j - res s' m 0 (fun _ => 0) j)) := by
  have h1 := trace_res hG hAW hAQc hS
  have h2 := trace_res hG' hAW' hAQc' hS₁
  have h3 := trace_res hG' hAW' hAQc' (kc := 0) (y := fun _ => 0) (S := 0) (by simp)
  have e : S - k • S₁ = -∑ j ∈ range m, (y j - k * z j) • A j := by
    rw [hS, hS₁]
    simp only [sub_smul, sum_sub_distrib, smul_sub, mul_smul, smul_sum]
    abel
  have h4 : ((W * S * W + k • (W * S₁ * W) - (2 : ℝ) • W) * (S - k • S₁)).trace =
      δ * ∑ j ∈ range m, (y j - k * z j) *
        (res s m (k * c) y j + k * (res s' m c z j - res s' m 0 (fun _ => 0) j)) := by
    rw [Matrix.trace_mul_comm, e, Matrix.neg_mul, Matrix.trace_neg, Matrix.sum_mul, Matrix.trace_sum, mul_sum,
      ← sum_neg_distrib]
    refine sum_congr rfl fun j hj => ?_
    have hj := mem_range.1 hj
    have g : δ * (res s m (k * c) y j + k * (res s' m c z j - res s' m 0 (fun _ => 0) j)) =
        -(A j * (W * S * W + k • (W * S₁ * W) - (2 : ℝ) • W)).trace := by
      have : δ * (res s m (k * c) y j + k * (res s' m c z j - res s' m 0 (fun _ => 0) j)) = δ * res s m (k * c) y j +
          k * (δ * res s' m c z j - δ * res s' m 0 (fun _ => 0) j) := by ring
      rw [this, h1 j hj, h2 j hj, h3 j hj]
      simp only [Matrix.mul_sub, Matrix.mul_add, Matrix.trace_sub, Matrix.trace_add, Matrix.mul_smul, Matrix.trace_smul,
        smul_eq_mul, Matrix.mul_zero, Matrix.zero_mul, Matrix.trace_zero]
      ring
    rw [Matrix.smul_mul, Matrix.trace_smul, smul_eq_mul]
    linear_combination -(y j - k * z j) * g
  rw [← h4]
  simp only [Matrix.sub_mul, Matrix.add_mul, Matrix.mul_sub, Matrix.trace_sub, Matrix.trace_add, Matrix.smul_mul,
    Matrix.mul_smul, Matrix.trace_smul, smul_eq_mul, Matrix.mul_assoc]
  have h5 : (W * (S * (W * S₁))).trace = (W * (S₁ * (W * S))).trace := by
    rw [← Matrix.mul_assoc, Matrix.trace_mul_comm]
    simp only [Matrix.mul_assoc]
  rw [h5]
  ring

theorem sq_between {a b t k B : ℝ} (h1 : a ≤ t) (h2 : t ≤ b) (ha : (k * a - 1) ^ 2 ≤ B) (hb : (k * b - 1) ^ 2 ≤ B) :
    (k * t - 1) ^ 2 ≤ B := by
  rcases le_total 0 k with hk | hk
  · have e1 := mul_le_mul_of_nonneg_left h1 hk
    have e2 := mul_le_mul_of_nonneg_left h2 hk
    rcases le_total 0 (k * t - 1) with h | h <;> nlinarith
  · have e1 := mul_le_mul_of_nonpos_left h1 hk
    have e2 := mul_le_mul_of_nonpos_left h2 hk
    rcases le_total 0 (k * t - 1) with h | h <;> nlinarith

/-- Numbers between eigenvalues. -/
theorem sq_hull {ι : Type} [Fintype ι] {l : ι → ℝ} {a b k B : ℝ} (hB : ∀ i, (k * l i - 1) ^ 2 ≤ B) (hab : a ≤ b)
    (h : ∀ lo hi, (∀ i, lo ≤ l i ∧ l i ≤ hi) → lo ≤ a ∧ b ≤ hi) : (k * a - 1) ^ 2 ≤ B ∧ (k * b - 1) ^ 2 ≤ B := by
  rcases isEmpty_or_nonempty ι with he | hne
  · have h1 := (h (a + 1) b fun i => (he.false i).elim).1
    linarith
  obtain ⟨i, hi⟩ := Finite.exists_min l
  obtain ⟨j, hj⟩ := Finite.exists_max l
  obtain ⟨h1, h2⟩ := h (l i) (l j) fun r => ⟨hi r, hj r⟩
  exact ⟨sq_between h1 (hab.trans h2) (hB i) (hB j), sq_between (h1.trans hab) h2 (hB i) (hB j)⟩

theorem lmi_slack {v : Env ℝ} (hv : ∀ x, 0 ≤ x → SolveLoop.Spec.SqrtAt v.sqrt x) (ht : Lmi.Spec.TriEigenvalues v.tri)
    {m len : Nat} (hm0 : 0 < m) {o : Lmi.Con m ℝ} {w : Lmi.Ws m ℝ} (hm : o.m = len) (ho : Lmi.Spec.Symmetric o)
    (hW : w.W.PosDef) (c : ℝ) (z : Nat → ℝ) : ∃ F T e, ItemSlack v (.lmi m o w) len c z F T e := by
  subst hm
  set S := Lmi.Spec.slack o c z with hS
  have hSt : Sᵀ = S := by
    have := Lmi.slack_transpose ho c z
    rwa [transpose_neg, neg_inj] at this
  obtain ⟨V, d, e1, e2, e3⟩ := Lmi.exists_basis hW hSt
  have hgap : ∀ k, sqGap (w.W * S * (w.W * S)).trace (w.W * S).trace m k = ∑ i, (1 - k * d i) ^ 2 := by
    intro k
    have e4 : w.W * (k • S) * V = V * diagonal fun i => k * d i := by
      rw [Matrix.mul_smul, Matrix.smul_mul, e3, ← Matrix.mul_smul]
      congr 1
      ext i j
      by_cases h : i = j <;> simp [h]
    have e5 := trace_norm e1 e4
    rw [Fintype.card_fin] at e5
    rw [← e5]
    unfold sqGap
    simp only [Matrix.mul_smul, Matrix.smul_mul, Matrix.trace_smul, smul_eq_mul]
    ring
  have hle : ∀ k i, (k * d i - 1) ^ 2 ≤ sqGap (w.W * S * (w.W * S)).trace (w.W * S).trace m k := fun k i => by
    rw [hgap, show (k * d i - 1) ^ 2 = (1 - k * d i) ^ 2 by ring]
    exact single_le_sum (f := fun i => (1 - k * d i) ^ 2) (fun _ _ => sq_nonneg _) (mem_univ i)
  obtain ⟨i₀, hi₀, -⟩ := Lmi.argmaxDiag_some (w.W * -S) hm0
  obtain ⟨t, hsl⟩ : ∃ t, Lmi.slackData v.sqrt v.tri o w o.m z c ⟨0, 0, 0, 0, 0⟩ = .ok t := by
    unfold Lmi.slackData
    rw [Lmi.negativeSlack_eq o c le_rfl]
    simp only [Outcome.bind_ok, ← hS, hi₀]
    exact ⟨_, rfl⟩
  refine ⟨(w.W * S * (w.W * S)).trace, (w.W * S).trace, t.map fun t => (t.lmin, t.lmax), ?_, fun k => ?_, fun a b hab => ?_,
    fun _ k hk => ?_, fun k y x' n b s₀ s s₀' s' hp hr hs hr' hs' => ?_⟩
  · simp only [itemSlack, Lmi.negativeSlack_eq o c le_rfl, Outcome.bind_ok, hsl, ← hS]
    simp
  · show 0 ≤ sqGap _ _ m k
    rw [hgap]
    exact sum_nonneg fun i _ => sq_nonneg _
  · obtain ⟨d', rfl, hd'⟩ := Option.map_eq_some_iff.1 hab
    rw [Prod.mk.injEq] at hd'
    obtain ⟨rfl, rfl⟩ := hd'
    obtain ⟨-, -, -, h1, h2⟩ := Lmi.C58_slack (fun x hx => hv x hx.le) ht o ho w hW o.m z c _ d' hsl
    refine ⟨h1, fun k => sq_hull (l := d) (hle k) h1 fun lo hi h => h2 lo hi fun μ hμ => ?_⟩
    obtain ⟨i, rfl⟩ := (Lmi.eigenvalue_iff e1 e3 μ).1 hμ
    exact h i
  · have hcol : (fun r => (-S) r i₀) ≠ 0 := by
      intro h0
      have : MatrixExp.Spec.Eigenvalue (w.W * S) 0 := by
        refine ⟨Pi.single i₀ 1, by simp, ?_⟩
        rw [zero_smul, ← Matrix.mulVec_mulVec]
        have : S *ᵥ Pi.single i₀ 1 = 0 := by
          ext r
          have := congrFun h0 r
          simp only [Matrix.neg_apply, Pi.zero_apply, neg_eq_zero] at this
          simp [this]
        rw [this, mulVec_zero]
      obtain ⟨i, hi⟩ := (Lmi.eigenvalue_iff e1 e3 0).1 this
      have := hle k i
      rw [hi] at this
      have hk' : sqGap (w.W * S * (w.W * S)).trace (w.W * S).trace m k < 1 := hk
      linarith
    obtain ⟨l, hl⟩ := (Lmi.C58_defined (sqrt := v.sqrt) (tri := v.tri) (S := -S) hW (fun r => (-S) r i₀) (m / 2)).2
      (Or.inr hcol)
    have hne : l ≠ [] := by
      intro h0
      subst h0
      unfold Lanczos.approxEigenvalues at hl
      split_ifs at hl with h1
      · subst h1
        simp at hl
      · obtain ⟨q, hq1, hq2⟩ := Option.map_eq_some_iff.1 hl
        unfold Lanczos.lanczos at hq1
        simp only at hq1
        split_ifs at hq1 with h2
        rw [Option.some.injEq] at hq1
        subst hq1
        exact (ht _ _ (by simp) (by simp)).1 hq2
    obtain ⟨q, hq⟩ := Lmi.extremes_ne_none hne
    refine ⟨-q.2, -q.1, ?_⟩
    unfold Lmi.slackData at hsl
    rw [Lmi.negativeSlack_eq o c le_rfl] at hsl
    simp only [Outcome.bind_ok, ← hS, hi₀, hl, hq, Option.map_some, Outcome.ok.injEq] at hsl
    rw [← hsl]
    rfl
  · obtain ⟨-, -, -, -, -, -, -, -, f5⟩ := lmi_direction hv ht ho hW hp
    obtain ⟨⟨t', g1, -, g2⟩, -⟩ := Lmi.C59_schur o ho w.W (Lmi.transpose_of_posDef hW) s₀ hr.ge
    have hs1 : Lmi.schur o w.W true s₀ = .ok s := hs
    rw [hs1, Outcome.ok.injEq] at g1
    subst g1
    obtain ⟨⟨t'', g1', -, g2'⟩, -⟩ := Lmi.C59_schur o ho w.W (Lmi.transpose_of_posDef hW) s₀' hr'.ge
    have hs1' : Lmi.schur o w.W true s₀' = .ok s' := hs'
    rw [hs1', Outcome.ok.injEq] at g1'
    subst g1'
    have := trace_shift (A := o.A) (C := o.C) (W := w.W) (m := o.m) (s := s) (s' := s') (δ := 1)
      (fun i hi j hj => by rw [one_mul, g2.G i hi j hj]) (fun i hi => by rw [one_mul, g2.AW i hi])
      (fun i hi => by rw [one_mul, g2.AQc i hi])
      (fun i hi j hj => by rw [one_mul, g2'.G i hi j hj]) (fun i hi => by rw [one_mul, g2'.AW i hi])
      (fun i hi => by rw [one_mul, g2'.AQc i hi]) (k := k) (c := c) (y := y) (z := z) (S := Lmi.Spec.slack o (k * c) y)
      (S₁ := S) rfl rfl
    rw [one_mul] at this
    rw [f5, this]
    show _ = sqGap _ _ (m : ℝ) k + _
    unfold sqGap
    ring

open Hyper HermLmi in
theorem hermitian_slack {v : Env ℝ} (hv : ∀ x, 0 ≤ x → SolveLoop.Spec.SqrtAt v.sqrt x)
    (ht : Lmi.Spec.TriEigenvalues v.tri) {d m len : Nat} {hd : NeZero d} {o : HermLmi.Con d m ℝ}
    {w : HermLmi.Ws d m ℝ} (hm : o.mats.length = len) (h4 : d = 1 ∨ d = 2 ∨ d = 4) (ho : HermLmi.Spec.HermitianData o)
    (hW : HermLmi.Spec.PosDef w.W) (hu : ∃ C, o.affine = some C) (hst : 0 < m → v.start d m ≠ 0) (c : ℝ) (z : Nat → ℝ) :
    ∃ F T e, ItemSlack v (.hermitian d m hd o w) len c z F T e := by
  subst hm
  obtain ⟨C, hC⟩ := hu
  have hD := dim_of_assoc h4
  have hd0 : (0 : ℝ) < d := by
    have : 0 < d := by omega
    exact_mod_cast this
  set S := HermLmi.Spec.slack o.mats C c z with hS
  have hSh : Hyper.Spec.Hermitian S := HermLmi.hermitian_slack hC ho c z
  have hSt : (lmat S)ᵀ = lmat S := (hermitian_lmat hD _).1 hSh
  obtain ⟨V, l, e1, e2, e3⟩ := Lmi.exists_basis ((posDef_lmat hD _).1 hW) hSt
  have e3' : lmat (multiply w.W S) * V = V * diagonal l := by rw [lmat_multiply h4]; exact e3
  set F := (multiply (multiply w.W S) (multiply w.W S) 0).trace with hF
  set T := (multiply w.W S 0).trace with hT
  have hFd : (lmat w.W * lmat S * (lmat w.W * lmat S)).trace = d * F := by
    rw [hF, ← retr_zero, ← trace_lmat hD, lmat_multiply h4, lmat_multiply h4]
  have hTd : (lmat w.W * lmat S).trace = d * T := by
    rw [hT, ← retr_zero, ← trace_lmat hD, lmat_multiply h4]
  have hsc : ∀ k : ℝ, lmat (multiply w.W (scalarMultiply S k)) * V = V * diagonal fun i => k * l i := by
    intro k
    rw [lmat_multiply h4, lmat_scalar, Matrix.mul_smul, Matrix.smul_mul, e3, ← Matrix.mul_smul]
    congr 1
    ext i j
    by_cases h : i = j <;> simp [h]
  have hgap : ∀ k, d * sqGap F T m k = ∑ i, (1 - k * l i) ^ 2 := by
    intro k
    have e4 := hsc k
    rw [lmat_multiply h4, lmat_scalar] at e4
    have e5 := trace_norm e1 e4
    rw [Fintype.card_prod, Fintype.card_fin, Fintype.card_fin, Nat.cast_mul] at e5
    rw [← e5]
    unfold sqGap
    simp only [Matrix.mul_smul, Matrix.smul_mul, Matrix.trace_smul, smul_eq_mul, hFd, hTd]
    ring
  have hle : ∀ k i, (k * l i - 1) ^ 2 ≤ sqGap F T m k := fun k i => by
    have := multiplicity_le h4 (multiply w.W (scalarMultiply S k)) e1 (hsc k) i
    rw [← hgap] at this
    rw [show (k * l i - 1) ^ 2 = (1 - k * l i) ^ 2 by ring]
    exact le_of_mul_le_mul_left this hd0
  obtain ⟨t, hsl⟩ : ∃ t, HermLmi.slackData v.sqrt v.tri (v.start d m) o w o.mats.length z c ⟨0, 0, 0, 0, 0⟩ = .ok t := by
    unfold HermLmi.slackData
    rw [HermLmi.negativeSlack_eq hC c le_rfl]
    exact ⟨_, rfl⟩
  refine ⟨F, T, t.map fun t => (t.lmin, t.lmax), ?_, fun k => ?_, fun a b hab => ?_, fun hm0 k hk => ?_,
    fun k y x' n b s₀ s s₀' s' hp hr hs hr' hs' => ?_⟩
  · simp only [itemSlack, HermLmi.negativeSlack_eq hC c le_rfl, Outcome.bind_ok, hsl, ← hS, multiply_scalar, scalar_multiply]
    rw [Hyper.scalar_apply, Hyper.scalar_apply, Hyper.scalar_apply]
    simp [hF, hT]
  · have : 0 ≤ (d : ℝ) * sqGap F T m k := by
      rw [hgap]
      exact sum_nonneg fun i _ => sq_nonneg _
    exact nonneg_of_mul_nonneg_right this hd0
  · obtain ⟨d', rfl, hd'⟩ := Option.map_eq_some_iff.1 hab
    rw [Prod.mk.injEq] at hd'
    obtain ⟨rfl, rfl⟩ := hd'
    obtain ⟨C', hC', -, -, -, h1, h2⟩ := HermLmi.C61_slack h4 (fun x hx => hv x hx.le) ht (v.start d m) o ho w hW o.mats.length
      z c _ d' hsl
    rw [hC] at hC'
    cases hC'
    refine ⟨h1, fun k => sq_hull (l := l) (hle k) h1 fun lo hi h => h2 lo hi fun μ hμ => ?_⟩
    rw [eigenvalue_lmat] at hμ
    obtain ⟨i, rfl⟩ := (Lmi.eigenvalue_iff e1 e3' μ).1 hμ
    exact h i
  · have hm0' : 0 < m := hm0
    have hr0 := hst hm0'
    have hSh' := HermLmi.hermitian_scalar hSh (-1)
    obtain ⟨q, hq⟩ := (HermLmi.C61_defined h4 (sqrt := v.sqrt) (fun x hx => hv x hx.le) w.W (scalarMultiply S (-1)) hW hSh'
      (v.start d m)).2 ⟨hr0, Or.inr fun h0 => by
        have hWr : multiply w.W (v.start d m) ≠ 0 := fun h1 => by
          have := hW.2 _ hr0
          rw [form_eq, ← flat_multiply, h1] at this
          have h2 : flat (0 : HermLmi.Col d m ℝ) = 0 := rfl
          rw [h2, dotProduct_zero] at this
          exact lt_irrefl _ this
        have : HermLmi.Spec.Eigenvalue (multiply w.W S) 0 := by
          refine ⟨multiply w.W (v.start d m), hWr, ?_⟩
          have h2 : multiply S (multiply w.W (v.start d m)) = 0 := by
            rw [scalar_multiply] at h0
            funext c'
            have := congrFun h0 c'
            rw [Hyper.scalar_apply] at this
            simpa using this
          intro c' r'
          rw [multiply_assoc h4, h2]
          simp [multiply_apply]
        rw [eigenvalue_lmat] at this
        obtain ⟨i, hi⟩ := (Lmi.eigenvalue_iff e1 e3' 0).1 this
        have := hle k i
        rw [hi] at this
        have hk' : sqGap F T (m : ℝ) k < 1 := hk
        linarith⟩
    have hne := (HermLmi.C61_within h4 (fun x hx => hv x hx.le) ht w.W _ hW hSh' (-∑ i, |l i|) (∑ i, |l i|)
      (fun μ hμ => by
        obtain ⟨u, hu0, he⟩ := hμ
        have : HermLmi.Spec.Eigenvalue (multiply w.W S) (-μ) := ⟨u, hu0, fun c' r' => by
          have := he c' r'
          rw [multiply_scalar, scalar_multiply] at this
          simp only [scalarMultiply] at this
          linarith⟩
        rw [eigenvalue_lmat] at this
        obtain ⟨i, hi⟩ := (Lmi.eigenvalue_iff e1 e3' (-μ)).1 this
        have h1 := single_le_sum (f := fun i => |l i|) (fun _ _ => abs_nonneg _) (mem_univ i)
        have h2 := abs_le.1 h1
        rw [hi] at h2
        constructor <;> linarith) (v.start d m) _ q hq).1
    obtain ⟨a, ha⟩ := Option.isSome_iff_exists.1 (List.isSome_min?_of_ne_nil hne)
    obtain ⟨b, hb⟩ := Option.isSome_iff_exists.1 (List.isSome_max?_of_ne_nil hne)
    refine ⟨-b, -a, ?_⟩
    unfold HermLmi.slackData at hsl
    rw [HermLmi.negativeSlack_eq hC c le_rfl] at hsl
    simp only [Outcome.bind_ok, ← hS] at hsl
    rw [hq] at hsl
    simp only [HermLmi.extremes, ha, hb, Outcome.ok.injEq, Option.bind_eq_bind, Option.bind_some, Option.map_some] at hsl
    rw [← hsl]
    rfl
  · obtain ⟨-, C', -, hC', -, -, -, -, -, -, -, -, -, -, f5⟩ := hermitian_direction hv ht h4 ho hW hp
    rw [hC] at hC'
    cases hC'
    obtain ⟨⟨t', g1, -, g2⟩, -⟩ := HermLmi.C62_schur hD o ho w.W hW.1 C hC s₀ hr.ge
    have hs1 : HermLmi.schur o w.W true s₀ = .ok s := hs
    rw [hs1, Outcome.ok.injEq] at g1
    subst g1
    obtain ⟨⟨t'', g1', -, g2'⟩, -⟩ := HermLmi.C62_schur hD o ho w.W hW.1 C hC s₀' hr'.ge
    have hs1' : HermLmi.schur o w.W true s₀' = .ok s' := hs'
    rw [hs1', Outcome.ok.injEq] at g1'
    subst g1'
    have hAm : ∀ i < o.mats.length, Hyper.Spec.Hermitian (o.mats.getD i fun _ => 0) := by
      intro i hi
      rw [List.getD_eq_getElem?_getD, List.getElem?_eq_getElem hi, Option.getD_some]
      exact ho.1 _ (List.getElem_mem hi)
    have hQ : ∀ W X : HMat d m ℝ, lmat (quadRep W X) = lmat W * lmat X * lmat W := fun W X => by
      rw [quadRep_assoc h4, lmat_multiply h4, lmat_multiply h4]
    have := trace_shift (A := fun i => lmat (o.mats.getD i fun _ => 0)) (C := lmat C) (W := lmat w.W)
      (m := o.mats.length) (s := s) (s' := s') (δ := d)
      (fun i hi j hj => by rw [g2.G i hi j hj, inner_lmat hD (hAm i hi) _ h4, hQ])
      (fun i hi => by rw [g2.AW i hi, inner_lmat hD (hAm i hi) _ h4])
      (fun i hi => by rw [g2.AQc i hi, inner_lmat hD (hAm i hi) _ h4, hQ])
      (fun i hi j hj => by rw [g2'.G i hi j hj, inner_lmat hD (hAm i hi) _ h4, hQ])
      (fun i hi => by rw [g2'.AW i hi, inner_lmat hD (hAm i hi) _ h4])
      (fun i hi => by rw [g2'.AQc i hi, inner_lmat hD (hAm i hi) _ h4, hQ]) (k := k) (c := c) (y := y) (z := z)
      (S := lmat (HermLmi.Spec.slack o.mats C (k * c) y)) (S₁ := lmat S) (lmat_slack _ _ _ _) (lmat_slack _ _ _ _)
    rw [hFd, hTd] at this
    refine mul_left_cancel₀ hd0.ne' ?_
    rw [f5, this]
    show _ = (d : ℝ) * (sqGap _ _ (m : ℝ) k + _)
    unfold sqGap
    ring

theorem dist_gap {L : List ℝ} {q : Divergence.Slack ℝ} (h : Divergence.Spec.DataOf L q) (k : ℝ) :
    sqGap q.frob q.trace L.length k = (L.map fun a => (k * a - 1) ^ 2).sum := by
  rw [h.frob, h.trace]
  clear h
  unfold sqGap
  induction L with
  | nil => simp
  | cons a L ih =>
    simp only [List.map_cons, List.sum_cons, List.length_cons, Nat.cast_succ] at ih ⊢
    rw [← ih]
    ring

open ConeCentering ConeCentering.Spec Spin in
theorem vector_slack {v : Env ℝ} (hv : ∀ x, 0 ≤ x → SolveLoop.Spec.SqrtAt v.sqrt x) (hexp : v.exp = Real.exp)
    {vars : List Nat} {N : Nat} {x : Item ℝ} (hg : Gap.Spec.Good ⟨vars, x⟩ N) (hu : Iteration.Spec.Usable x)
    (hk : ConeCentering.Kind x vars.length) (hw : ∀ r < cells x, Spin.Spec.Interior (form x) (point x r))
    (hc : ∀ n Q, x ≠ .cost n Q) (c : ℝ) (z : Nat → ℝ) : ∃ F T e, ItemSlack v x vars.length c z F T e := by
  have he : ∀ x, 0 < v.exp x := fun x => hexp ▸ Real.exp_pos x
  obtain ⟨L, q, h1, h2, h3⟩ := item_data hv hk hc hw c z
  have hB := hk.form
  have hrank : (x.rank : ℝ) = L.length := by
    have := h3.sum 0
    simp only [zero_mul, zero_sub, neg_sq, one_pow, List.map_const', List.sum_replicate, nsmul_eq_mul, mul_one] at this
    rw [this]
    rcases hk with ⟨o, w, rfl, -⟩ | ⟨o, w, rfl, -⟩ | ⟨o, w, rfl, -⟩ | ⟨n, Q, rfl, -⟩
    · simp [Item.rank, cells, half, gapSq]
    · simp [Item.rank, cells, half, gapSq]
    · simp [Item.rank, cells, half, gapSq]
    · exact absurd rfl (hc n Q)
  have hgap : ∀ k, sqGap q.frob q.trace x.rank k = (L.map fun a => (k * a - 1) ^ 2).sum := fun k => by
    rw [hrank]
    exact dist_gap h2 k
  have hmem : ∀ k, ∀ a ∈ L, (k * a - 1) ^ 2 ≤ sqGap q.frob q.trace x.rank k := fun k a ha => by
    rw [hgap]
    exact List.single_le_sum (l := L.map fun a => (k * a - 1) ^ 2)
      (fun t ht => by obtain ⟨a, -, rfl⟩ := List.mem_map.1 ht; exact sq_nonneg _) _ (List.mem_map_of_mem ha)
  refine ⟨q.frob, q.trace, some (q.lmin, q.lmax), h1, fun k => ?_, fun a b hab => ?_, fun _ k _ => ⟨_, _, rfl⟩,
    fun k y x' n b s₀ s s₀' s' hp hr hs hr' hs' => ?_⟩
  · exact (sq_nonneg _).trans (hmem k _ h2.lmin_mem)
  · rw [Option.some.injEq, Prod.mk.injEq] at hab
    obtain ⟨rfl, rfl⟩ := hab
    exact ⟨h2.lmin_le _ h2.lmax_mem, fun k => ⟨hmem k _ h2.lmin_mem, hmem k _ h2.lmax_mem⟩⟩
  · obtain ⟨x₁, n₁, β₁, g1, g2⟩ := Iteration.item_total hv he hg hu (k * c) y
    rw [hp, Outcome.ok.injEq, Prod.mk.injEq, Prod.mk.injEq] at g1
    obtain ⟨rfl, rfl, rfl⟩ := g1
    obtain ⟨x'', g2⟩ := g2 1
    obtain ⟨-, -, qs, n', rfl, g3, g4, -⟩ := ConeCentering.item_step hv hexp hk hw hp g2
    have r1 := item_res hv hk hw hr hs (k * c) y
    have r2 := item_res hv hk hw hr' hs' c z
    have r3 := item_res hv hk hw hr' hs' 0 (fun _ => 0)
    have hgr : ∀ u j, Centering.Spec.gradient u x j = 0 := by
      intro u j
      rcases hk with ⟨o, w, rfl, -⟩ | ⟨o, w, rfl, -⟩ | ⟨o, w, rfl, -⟩ | ⟨n, Q, rfl, -⟩
      · simp [Centering.Spec.gradient]
      · simp [Centering.Spec.gradient]
      · simp [Centering.Spec.gradient]
      · exact absurd rfl (hc n Q)
    have hpair : ∀ (X : Soc.El ℝ) (r : Nat), ∑ j ∈ range vars.length, (y j - k * z j) * pair x (column x r j) X =
        -(half x * (Spin.Spec.tr (form x) (slackAt x vars.length (k * c) y r) X -
          k * Spin.Spec.tr (form x) (slackAt x vars.length c z r) X)) := by
      intro X r
      unfold slackAt
      rw [tr_slack hB, tr_slack hB]
      simp only [pair_eq]
      have : ∑ j ∈ range vars.length, (y j - k * z j) * (half x * Spin.Spec.tr (form x) (column x r j) X) =
          half x * (∑ j ∈ range vars.length, y j * Spin.Spec.tr (form x) (column x r j) X -
            k * ∑ j ∈ range vars.length, z j * Spin.Spec.tr (form x) (column x r j) X) := by
        rw [mul_sum, ← sum_sub_distrib, mul_sum]
        exact sum_congr rfl fun j _ => by ring
      rw [this]
      ring
    have f1 : ∀ j ∈ range vars.length, (y j - k * z j) *
        (res s vars.length (k * c) y j + k * (res s' vars.length c z j - res s' vars.length 0 (fun _ => 0) j)) =
        ∑ r ∈ range (cells x), ((y j - k * z j) * pair x (column x r j)
          (dualPoint (form x) (point x r) (slackAt x vars.length (k * c) y r)) + k *
        ((y j - k * z j) * pair x (column x r j) (dualPoint (form x) (point x r) (slackAt x vars.length c z r))) - k *
        ((y j - k * z j) * pair x (column x r j)
          (dualPoint (form x) (point x r) (slackAt x vars.length 0 (fun _ => 0) r)))) := by
      intro j hj
      rw [r1 j (mem_range.1 hj), r2 j (mem_range.1 hj), r3 j (mem_range.1 hj), hgr, hgr, hgr, sum_sub_distrib,
        sum_add_distrib]
      simp only [← mul_sum]
      ring
    rw [sum_congr rfl f1, sum_comm, hgap, h3.sum k, g4, ← sum_add_distrib]
    refine sum_congr rfl fun r hr => ?_
    obtain ⟨_, _, _, g5, -⟩ := g3 r (mem_range.1 hr)
    rw [prepared_gap hB g5, sum_sub_distrib, sum_add_distrib, ← mul_sum, ← mul_sum, hpair, hpair, hpair]
    have h0 : ∀ X, Spin.Spec.tr (form x) (slackAt x vars.length 0 (fun _ => 0) r) X = 0 := fun X => by
      unfold slackAt
      rw [tr_slack hB]
      simp
    have e2 : Spin.Spec.tr (form x) (Spin.Spec.quad (form x) (point x r) (slackAt x vars.length (k * c) y r))
        (slackAt x vars.length c z r) = Spin.Spec.tr (form x) (Spin.Spec.quad (form x) (point x r)
        (slackAt x vars.length c z r)) (slackAt x vars.length (k * c) y r) := by
      rw [tr_quad hB, tr_comm hB]
    have e3 : ∀ w u : Soc.El ℝ, Spin.Spec.tr (form x) u (dualPoint (form x) (point x r) w) =
        2 * Spin.Spec.tr (form x) (point x r) u - Spin.Spec.tr (form x) (Spin.Spec.quad (form x) (point x r) w) u := by
      intro w u
      unfold dualPoint
      rw [tr_comm hB, tr_add hB, tr_smul hB, tr_smul hB]
      ring
    have e4 : ∀ u, Spin.Spec.tr (form x) (Spin.Spec.quad (form x) (point x r) (slackAt x vars.length 0 (fun _ => 0) r)) u =
        0 := fun u => by rw [tr_quad hB, h0]
    simp only [e3, e4, e2]
    unfold gapSq
    ring

/-- Start vectors for the approximations of eigenvalues. -/
def Starts (v : Env ℝ) : Prop := ∀ d m, 0 < d → 0 < m → v.start d m ≠ 0

theorem item_slack {v : Env ℝ} (hv : ∀ x, 0 ≤ x → SolveLoop.Spec.SqrtAt v.sqrt x) (hexp : v.exp = Real.exp)
    (ht : Lmi.Spec.TriEigenvalues v.tri) (hst : Starts v) {vars : List Nat} {N : Nat} {x : Item ℝ}
    (hg : Gap.Spec.Good ⟨vars, x⟩ N) (hu : Iteration.Spec.Usable x) (hc : ∀ n Q, x ≠ .cost n Q) (c : ℝ) (z : Nat → ℝ) :
    ∃ F T e, ItemSlack v x vars.length c z F T e := by
  rcases kind_of hg hu with ⟨m, o, w, rfl⟩ | ⟨d, m, hd, o, w, rfl⟩ | ⟨hk, hw⟩
  · obtain ⟨-, -, h1, h2, h3⟩ := hg
    exact lmi_slack hv ht hu h1 h2 h3 c z
  · obtain ⟨-, -, h1, h2, h3, h4⟩ := hg
    exact hermitian_slack hv ht h1 h2 h3 h4 hu (hst d m (by omega)) c z
  · exact vector_slack hv hexp hg hu hk hw hc c z

/-! ### All constraints -/

theorem slackEntries_map {v : Env ℝ} {c : ℝ} {N : Nat} {y : Nat → ℝ} {D : Entry ℝ → ℝ × ℝ × Option (ℝ × ℝ)} :
    ∀ (es : List (Entry ℝ)), (∀ e ∈ es, (∀ v ∈ e.vars, v < N) ∧
      itemSlack v c e.vars.length (fun j => y (e.vars.getD j 0)) e.item = .ok (D e)) → ∀ p,
    slackEntries v c N y es p = .ok ((es.map D).foldl joinSlack p) := by
  intro es
  induction es with
  | nil => exact fun _ p => rfl
  | cons e es ih =>
    intro h p
    obtain ⟨h1, h2⟩ := h e List.mem_cons_self
    simp only [slackEntries, Whole.gather_ok' h1, h2, Outcome.bind_ok, List.map_cons, List.foldl_cons]
    exact ih (fun e' he' => h e' (List.mem_cons_of_mem _ he')) _

theorem join_sums : ∀ (ds : List (ℝ × ℝ × Option (ℝ × ℝ))) (p : Divergence.Slack ℝ),
    (ds.foldl joinSlack p).frob = p.frob + (ds.map (·.1)).sum ∧
    (ds.foldl joinSlack p).trace = p.trace + (ds.map (·.2.1)).sum ∧
    (ds.foldl joinSlack p).rank = p.rank := by
  intro ds
  induction ds with
  | nil => intro p; simp
  | cons d ds ih =>
    intro p
    obtain ⟨h1, h2, h3⟩ := ih (joinSlack p d)
    rw [List.foldl_cons, List.map_cons, List.sum_cons, List.map_cons, List.sum_cons, h1, h2, h3]
    exact ⟨by show p.frob + d.1 + _ = _; ring, by show p.trace + d.2.1 + _ = _; ring, rfl⟩

theorem join_min : ∀ (ds : List (ℝ × ℝ × Option (ℝ × ℝ))) (p : Divergence.Slack ℝ),
    ((ds.foldl joinSlack p).lmin = p.lmin ∨ ∃ d ∈ ds, ∃ b, d.2.2 = some ((ds.foldl joinSlack p).lmin, b)) ∧
    (ds.foldl joinSlack p).lmin ≤ p.lmin ∧ ∀ d ∈ ds, ∀ a b, d.2.2 = some (a, b) → (ds.foldl joinSlack p).lmin ≤ a := by
  intro ds
  induction ds with
  | nil => intro p; simp
  | cons d ds ih =>
    intro p
    obtain ⟨h1, h2, h3⟩ := ih (joinSlack p d)
    simp only [List.foldl_cons]
    have hj : (joinSlack p d).lmin ≤ p.lmin ∧ ((joinSlack p d).lmin = p.lmin ∨ ∃ b, d.2.2 = some ((joinSlack p d).lmin, b)) ∧
        ∀ a b, d.2.2 = some (a, b) → (joinSlack p d).lmin ≤ a := by
      unfold joinSlack
      rcases hd : d.2.2 with _ | ⟨a, b⟩
      · simp
      · simp only [Option.some.injEq, Prod.mk.injEq]
        split_ifs with h
        · exact ⟨h.le, Or.inr ⟨b, rfl, rfl⟩, fun _ _ h => h.1.le⟩
        · exact ⟨le_rfl, Or.inl rfl, fun _ _ h' => h'.1 ▸ not_lt.1 h⟩
    refine ⟨?_, h2.trans hj.1, fun d' hd' a b hab => ?_⟩
    · rcases h1 with h1 | ⟨d', hd', b, h1⟩
      · rcases hj.2.1 with h | ⟨b, h⟩
        · exact Or.inl (h1.trans h)
        · exact Or.inr ⟨d, List.mem_cons_self, b, h1 ▸ h⟩
      · exact Or.inr ⟨d', List.mem_cons_of_mem _ hd', b, h1⟩
    · rcases List.mem_cons.1 hd' with rfl | hd'
      · exact h2.trans (hj.2.2 a b hab)
      · exact h3 d' hd' a b hab

theorem join_max : ∀ (ds : List (ℝ × ℝ × Option (ℝ × ℝ))) (p : Divergence.Slack ℝ),
    ((ds.foldl joinSlack p).lmax = p.lmax ∨ ∃ d ∈ ds, ∃ a, d.2.2 = some (a, (ds.foldl joinSlack p).lmax)) ∧
    p.lmax ≤ (ds.foldl joinSlack p).lmax ∧ ∀ d ∈ ds, ∀ a b, d.2.2 = some (a, b) → b ≤ (ds.foldl joinSlack p).lmax := by
  intro ds
  induction ds with
  | nil => intro p; simp
  | cons d ds ih =>
    intro p
    obtain ⟨h1, h2, h3⟩ := ih (joinSlack p d)
    simp only [List.foldl_cons]
    have hj : p.lmax ≤ (joinSlack p d).lmax ∧ ((joinSlack p d).lmax = p.lmax ∨ ∃ a, d.2.2 = some (a, (joinSlack p d).lmax)) ∧
        ∀ a b, d.2.2 = some (a, b) → b ≤ (joinSlack p d).lmax := by
      unfold joinSlack
      rcases hd : d.2.2 with _ | ⟨a, b⟩
      · simp
      · simp only [Option.some.injEq, Prod.mk.injEq]
        split_ifs with h
        · exact ⟨h.le, Or.inr ⟨a, rfl, rfl⟩, fun _ _ h => h.2.ge⟩
        · exact ⟨le_rfl, Or.inl rfl, fun _ _ h' => h'.2 ▸ not_lt.1 h⟩
    refine ⟨?_, hj.1.trans h2, fun d' hd' a b hab => ?_⟩
    · rcases h1 with h1 | ⟨d', hd', b, h1⟩
      · rcases hj.2.1 with h | ⟨b, h⟩
        · exact Or.inl (h1.trans h)
        · exact Or.inr ⟨d, List.mem_cons_self, b, h1 ▸ h⟩
      · exact Or.inr ⟨d', List.mem_cons_of_mem _ hd', b, h1⟩
    · rcases List.mem_cons.1 hd' with rfl | hd'
      · exact (hj.2.2 a b hab).trans h2
      · exact h3 d' hd' a b hab

/-- The residual without the constant part. -/
theorem res_linear (s : Schur.Sys ℝ) (len : Nat) (c : ℝ) (y : Nat → ℝ) (j : Nat) :
    res { s with AW := fun _ => 0 } len c y j = res s len c y j - res s len 0 (fun _ => 0) j := by
  unfold res
  simp only [mul_zero, sum_const_zero, zero_mul]
  ring

/-- The data of the divergence: the squared norm of the Newton direction for `k`. -/
theorem divergence_gap {v : Env ℝ} (hv : ∀ x, 0 ≤ x → SolveLoop.Spec.SqrtAt v.sqrt x) (hexp : v.exp = Real.exp)
    (ht : Lmi.Spec.TriEigenvalues v.tri) (hst : Starts v) {p : Iteration.Setup ℝ} {duals : List (List Nat)}
    {x : Iteration.State ℝ} (hr : Iteration.Spec.Ready p duals x) (hc : NoCosts x.es)
    {S : Search ℝ} {f : Iteration.Factored ℝ} {solver : Sup.Solver ℝ}
    (hf : Iteration.factorize v p x = .ok f) (hsol : f.solver = some solver) :
    ∃ t : Divergence.Slack ℝ, divergenceMu v S p x.es f.r solver = .ok (Divergence.muFromDivergence v.sqrt S.factor t) ∧
      t.rank = rank x.es ∧ (∀ k st x', Iteration.iterate v p k x = .ok (some (st, x')) → st.normsqrd = Divergence.gap t k) ∧
      (1 ≤ t.rank → ∀ k, 1 / 24000 ≤ k → Divergence.gap t k ≤ 1 / 100 → Divergence.Inner t) := by
  have he : ∀ x, 0 < v.exp x := fun x => hexp ▸ Real.exp_pos x
  obtain ⟨f', solver', s', hf', hsol', h1, -, h3, h4⟩ := factor_solves hv hr
  rw [hf, Outcome.ok.injEq] at hf'
  subst hf'
  rw [hsol, Option.some.injEq] at hsol'
  subst hsol'
  obtain ⟨z, h5, h6⟩ := h4 fun u => f.r.AQc u * p.cs - p.b u * p.bs
  have hex : ∀ e : Entry ℝ, ∃ F T E, e ∈ x.es →
      ItemSlack v e.item e.vars.length p.cs (fun j => z (e.vars.getD j 0)) F T E := by
    intro e
    by_cases hm : e ∈ x.es
    · obtain ⟨F, T, E, h⟩ := item_slack (vars := e.vars) hv hexp ht hst (hr.good e hm) (hr.usable e hm) (hc e hm) p.cs
        fun j => z (e.vars.getD j 0)
      exact ⟨F, T, E, fun _ => h⟩
    · exact ⟨0, 0, none, fun h => absurd h hm⟩
  choose F T E hD using hex
  have hg : ∀ e ∈ x.es, e.vars.Nodup ∧ ∀ v ∈ e.vars, v < p.N := fun e he => ⟨(hr.good e he).1, (hr.good e he).2.1⟩
  set ds := x.es.map fun e => (F e, T e, E e) with hds
  set t : Divergence.Slack ℝ := ds.foldl joinSlack ⟨0, 0, 30000, -30000, rank x.es⟩ with htd
  have hsl : slackEntries v p.cs p.N z x.es ⟨0, 0, 30000, -30000, rank x.es⟩ = .ok t :=
    slackEntries_map x.es (fun e he => ⟨(hg e he).2, (hD e he).slack⟩) _
  obtain ⟨k1, k2, k3⟩ := join_sums ds (⟨0, 0, 30000, -30000, rank x.es⟩ : Divergence.Slack ℝ)
  rw [← htd] at k1 k2 k3
  have hgap : ∀ k, Divergence.gap t k = (x.es.map fun e => sqGap (F e) (T e) e.item.rank k).sum := by
    intro k
    unfold Divergence.gap
    rw [k1, k2, k3]
    show k * k * (0 + _) - 2 * k * (0 + _) + (rank x.es : ℝ) = _
    rw [Gap.rank_eq, hds]
    generalize x.es = l
    induction l with
    | nil => simp
    | cons a l ih =>
      simp only [List.map_cons, List.sum_cons] at ih ⊢
      rw [← ih]
      unfold sqGap
      ring
  refine ⟨t, by simp only [divergenceMu, h5, hsl, Outcome.bind_ok], k3, fun k st x' h => ?_, fun hn k hk hl => ?_⟩
  · obtain ⟨-, -, -, -, es', -, -, -, -, -, -, -, g3, -, -⟩ := Iteration.iterate_ok h
    obtain ⟨-, -, β, -, hB, hβ⟩ := program_direction hv hexp ht hr.good g3
    obtain ⟨s₀, s, h0, hs, hy⟩ := system hr h (Centering.unregularized hv he hr h)
    have p1 := paired (z := fun u => st.y u - k * z u) hg hy
    have p2 := paired (z := fun u => st.y u - k * z u) (y := z) (b := p.b) (k := 1) (bs := -p.bs) (cs := p.cs)
      (s := fun i => { s' i with AW := fun _ => 0 }) hg fun u hu => by
        show ∑ v ∈ range p.N, Sup.Spec.total (x.es.map Entry.vars) (fun i => (s' i).G) u v * z v = _
        rw [h6 u hu, h3 u]
        simp only [Sup.Spec.ventry]
        simp
        ring
    simp only [res_linear, one_mul] at p2
    have hitem : ∀ i ∈ range x.es.length, β i = sqGap (F (nth x.es i)) (T (nth x.es i)) (nth x.es i).item.rank k +
        (∑ j ∈ range ((x.es.map Entry.vars).getD i []).length,
          (st.y (((x.es.map Entry.vars).getD i []).getD j 0) - k * z (((x.es.map Entry.vars).getD i []).getD j 0)) *
            res (s i) ((x.es.map Entry.vars).getD i []).length (k * p.cs)
              (fun j => st.y (((x.es.map Entry.vars).getD i []).getD j 0)) j +
        k * ∑ j ∈ range ((x.es.map Entry.vars).getD i []).length,
          (st.y (((x.es.map Entry.vars).getD i []).getD j 0) - k * z (((x.es.map Entry.vars).getD i []).getD j 0)) *
            (res (s' i) ((x.es.map Entry.vars).getD i []).length p.cs
              (fun j => z (((x.es.map Entry.vars).getD i []).getD j 0)) j -
            res (s' i) ((x.es.map Entry.vars).getD i []).length 0 (fun _ => 0) j)) := by
      intro i hi
      have hi := mem_range.1 hi
      have hie := nth_get hi
      have hL : (x.es.map Entry.vars).getD i [] = (nth x.es i).vars := by
        rw [List.getD_eq_getElem?_getD, List.getElem?_map, hie]
        rfl
      rw [hL]
      obtain ⟨x₁, n₁, q1⟩ := hβ i _ hie
      obtain ⟨s₀', q2, q3⟩ := h1 i _ hie
      rw [(hD _ (nth_mem hi)).length k _ x₁ n₁ _ (s₀ i) (s i) s₀' (s' i) q1 (h0 i _ hie) (hs i _ hie) q2 q3, mul_sum,
        ← sum_add_distrib]
      congr 1
      exact sum_congr rfl fun j _ => by ring
    rw [hB, sum_congr rfl hitem, sum_add_distrib, sum_add_distrib, ← mul_sum, p1, p2, hgap]
    conv_rhs => rw [entries_nth x.es, List.map_map, sum_list]
    rw [mul_sum, ← sum_add_distrib, sum_eq_zero (s := range p.N) fun u _ => by ring, add_zero]
    rfl
  · have hk0 : 0 < k := lt_of_lt_of_le (by norm_num) hk
    have hle : ∀ e ∈ x.es, ∀ κ, sqGap (F e) (T e) e.item.rank κ ≤ Divergence.gap t κ := fun e he κ => by
      rw [hgap]
      exact List.single_le_sum (l := x.es.map fun e => sqGap (F e) (T e) e.item.rank κ)
        (fun a ha => by obtain ⟨e, he, rfl⟩ := List.mem_map.1 ha; exact (hD e he).nonneg κ) _
        (List.mem_map.2 ⟨e, he, rfl⟩)
    have hin : ∀ d ∈ ds, ∀ a b, d.2.2 = some (a, b) → a ≤ b ∧ ∀ κ, (κ * a - 1) ^ 2 ≤ Divergence.gap t κ ∧
        (κ * b - 1) ^ 2 ≤ Divergence.gap t κ := fun d hd a b hab => by
      obtain ⟨e, he, rfl⟩ := List.mem_map.1 hd
      obtain ⟨q1, q2⟩ := (hD e he).inner a b hab
      exact ⟨q1, fun κ => ⟨(q2 κ).1.trans (hle e he κ), (q2 κ).2.trans (hle e he κ)⟩⟩
    obtain ⟨e, hem, her⟩ : ∃ e ∈ x.es, 0 < e.item.rank := by
      by_contra hcon
      push Not at hcon
      have : (rank x.es : ℝ) = 0 := by
        rw [Gap.rank_eq]
        refine List.sum_eq_zero fun a ha => ?_
        obtain ⟨e, he, rfl⟩ := List.mem_map.1 ha
        have := hcon e he
        exact_mod_cast Nat.le_zero.1 this
      rw [k3] at hn
      have hn : (1 : ℝ) ≤ rank x.es := hn
      linarith
    obtain ⟨a, b, hab⟩ := (hD e hem).found her k (((hle e hem k).trans hl).trans_lt (by norm_num))
    have hd : (F e, T e, E e) ∈ ds := List.mem_map.2 ⟨e, hem, rfl⟩
    have hsq : ∀ c, (k * c - 1) ^ 2 ≤ Divergence.gap t k → c < 30000 ∧ 0 < c := by
      intro c h
      have := abs_le.1 (abs_le_of_sq_le_sq (h.trans (hl.trans (by norm_num : (1 : ℝ) / 100 ≤ (1 / 10) ^ 2))) (by norm_num))
      constructor <;> by_contra hcon <;> nlinarith [not_lt.1 hcon]
    obtain ⟨m1, -, m2⟩ := join_min ds (⟨0, 0, 30000, -30000, rank x.es⟩ : Divergence.Slack ℝ)
    obtain ⟨n1, -, n2⟩ := join_max ds (⟨0, 0, 30000, -30000, rank x.es⟩ : Divergence.Slack ℝ)
    rw [← htd] at m1 m2 n1 n2
    have hab' := hin _ hd a b hab
    have m3 := m2 _ hd a b hab
    have n3 := n2 _ hd a b hab
    refine ⟨m3.trans (hab'.1.trans n3), hn, fun κ => ?_, fun κ => ?_⟩
    · rcases m1 with h | ⟨d, hd', b', h⟩
      · have h : t.lmin = 30000 := h
        linarith [(hsq a (hab'.2 k).1).1]
      · exact ((hin d hd' _ _ h).2 κ).1
    · rcases n1 with h | ⟨d, hd', a', h⟩
      · have h : t.lmax = -30000 := h
        linarith [(hsq b (hab'.2 k).2).2]
      · exact ((hin d hd' _ _ h).2 κ).2

/-- Near the central path the divergence increases the barrier parameter `k` by a factor, and the directions up to the
chosen parameter are short. -/
theorem divergence_grow {v : Env ℝ} (hv : ∀ x, 0 ≤ x → SolveLoop.Spec.SqrtAt v.sqrt x) (hexp : v.exp = Real.exp)
    (ht : Lmi.Spec.TriEigenvalues v.tri) (hst : Starts v) {p : Iteration.Setup ℝ} {duals : List (List Nat)}
    {x x' : Iteration.State ℝ} (hr : Iteration.Spec.Ready p duals x) (hc : NoCosts x.es) (hn : 1 ≤ rank x.es)
    {S : Search ℝ} (hS : 0 < S.factor) (hB : S.factor * rank x.es ≤ 1 / 32) {τ : ℝ} (hτ : 0 ≤ τ)
    (hτS : 16 * τ ^ 2 ≤ S.factor) {f : Iteration.Factored ℝ} {solver : Sup.Solver ℝ}
    (hf : Iteration.factorize v p x = .ok f) (hsol : f.solver = some solver) {k : ℝ} (hk : 1 / 24000 ≤ k)
    {st : Iteration.Step ℝ} (h : Iteration.iterate v p k x = .ok (some (st, x')))
    (hl : st.normsqrd ≤ 2 * (S.factor * rank x.es) ^ 2) :
    ∃ d, divergenceMu v S p x.es f.r solver = .ok d ∧ (1 + τ) * k ≤ d ∧
      ∀ k', k ≤ k' → k' ≤ d → ∀ st' x', Iteration.iterate v p k' x = .ok (some (st', x')) →
        st'.normsqrd ≤ S.factor * rank x.es := by
  obtain ⟨t, h1, h2, h3, h4⟩ := divergence_gap (S := S) hv hexp ht hst hr hc hf hsol
  have hn' : (1 : ℝ) ≤ rank x.es := by exact_mod_cast hn
  have hpos : 0 < S.factor * (rank x.es : ℝ) := mul_pos hS (by linarith)
  have hk0 : 0 < k := lt_of_lt_of_le (by norm_num) hk
  rw [h3 k st x' h] at hl
  have hi := h4 (h2 ▸ hn') k hk (hl.trans (by nlinarith))
  obtain ⟨g1, g2⟩ := Divergence.mu_near hv hi hS hk0 hτ hτS (h2 ▸ hB) (h2 ▸ hl)
  refine ⟨_, h1, g1, fun k' e1 e2 st' x'' e3 => ?_⟩
  rw [h3 k' st' x'' e3, ← h2]
  exact g2 k' e1 e2

end Verif.MatrixCentering
