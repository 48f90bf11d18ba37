import Mathlib.Algebra.Field.Rat
import Mathlib.Analysis.Real.Sqrt
import Verif.Lemmas.HermitianLmi
import Verif.Model.Solve

/-!
# Properties of Hermitian linear matrix inequalities (C60, C61, C62)
-/

namespace Verif.HermLmi

open Matrix Finset Hyper Hyper.Spec

variable {d n : Nat}

/-! ### C60 -/

/-- The initial scaling point is positive definite. -/
theorem C60_identity (hd : Dim d) (w : Ws d n ℝ) : Spec.PosDef (setIdentity w).W := by
  rw [posDef_lmat hd]
  show (lmat (identity d)).PosDef
  rw [lmat_identity hd]
  exact Matrix.PosDef.one

/-- Over the reals, complex numbers and quaternions a step of any size in any direction leads from a
positive definite scaling point to a positive definite one. -/
theorem C60_step (hd : d = 1 ∨ d = 2 ∨ d = 4) (w : Ws d n ℝ) (hW : Spec.PosDef w.W) (S : HMat d n ℝ)
    (hS : Hyper.Spec.Hermitian S) (hWS : w.WS = multiply w.W S) (s e : ℝ) :
    Spec.PosDef (takeStep s e w).W := by
  have hD := dim_of_assoc hd
  rw [posDef_lmat hD] at hW ⊢
  obtain ⟨V, l, hV, hVW, hl⟩ := Lmi.exists_basis hW ((hermitian_lmat hD S).1 hS)
  rw [takeStep_conj hd hWS hVW hl, Lmi.posDef_conj hV]
  exact fun i => tay_pos _

/-- A quaternionic direction that is not real. -/
example : ∃ S : HMat 4 2 ℝ, Hyper.Spec.Hermitian S ∧ S 3 ≠ 0 := by
  refine ⟨fun c => if c.1 = 0 then !![2, 1; 1, -5] else !![0, 1; -1, 0], ?_, ?_⟩
  · intro c r s
    fin_cases c <;> fin_cases r <;> fin_cases s <;> simp
  · intro h
    have := congrFun (congrFun h 0) 1
    simp at this

/-- What one iteration passes to a constraint: the random start vector, the weights, the variables and
the step size. -/
structure Move (d n : Nat) (R : Type) where
  r : Col d n R
  c : R
  e : R
  ny : Nat
  y : Nat → R
  size : R

/-- Iterations of preparing and taking a step. -/
noncomputable def moves [NeZero d] (sqrt : ℝ → ℝ) (tri : List ℝ → List ℝ → List ℝ) (o : Con d n ℝ) :
    List (Move d n ℝ) → Ws d n ℝ → Outcome (Ws d n ℝ)
  | [], w => .ok w
  | m :: l, w => do
    let p ← prepareStep sqrt tri m.r o m.c m.e m.ny m.y w
    moves sqrt tri o l (takeStep m.size m.e p.1)

/-- All scaling points of a solve are positive definite, whatever sizes and directions are chosen. -/
theorem C60_run [NeZero d] (hd : d = 1 ∨ d = 2 ∨ d = 4) (sqrt : ℝ → ℝ)
    (tri : List ℝ → List ℝ → List ℝ) (o : Con d n ℝ) (ho : Spec.HermitianData o)
    (l : List (Move d n ℝ)) (w w' : Ws d n ℝ)
    (h : moves sqrt tri o l (setIdentity w) = .ok w') : Spec.PosDef w'.W := by
  have key : ∀ (l : List (Move d n ℝ)) (w : Ws d n ℝ), Spec.PosDef w.W →
      moves sqrt tri o l w = .ok w' → Spec.PosDef w'.W := by
    intro l
    induction l with
    | nil =>
      intro w hw h
      obtain rfl := Outcome.ok.inj h
      exact hw
    | cons m l ih =>
      intro w hw h
      rw [moves] at h
      cases hp : prepareStep sqrt tri m.r o m.c m.e m.ny m.y w with
      | throws => simp [hp] at h
      | ub => simp [hp] at h
      | diverges => simp [hp] at h
      | ok p =>
        obtain ⟨C, hC, -, h1, h2, -⟩ := prepareStep_inv (w' := p.1) (b := p.2.1) (q := p.2.2) hp
        simp only [hp, Outcome.bind_ok] at h
        refine ih _ ?_ h
        exact C60_step hd p.1 (by rw [h1]; exact hw) _
          (hermitian_scalar (hermitian_slack hC ho m.c m.y) (-1)) (by rw [h1, h2]) _ _
  exact key l _ (C60_identity (dim_of_assoc hd) w) h

example : Spec.HermitianData
    (⟨[fun c => if c.1 = 0 then !![1, 0; 0, -1] else !![0, 2; -2, 0]],
      some fun c => if c.1 = 0 then !![1, 3; 3, 1] else 0⟩ : Con 2 2 ℝ) := by
  constructor
  · intro A hA
    obtain rfl := List.mem_singleton.1 hA
    intro c r s
    fin_cases c <;> fin_cases r <;> fin_cases s <;> simp
  · intro C hC
    obtain rfl := Option.mem_some.1 hC
    intro c r s
    fin_cases c <;> fin_cases r <;> fin_cases s <;> simp

/-- A step of size zero changes nothing. -/
theorem C60_zero (hd : d = 1 ∨ d = 2 ∨ d = 4) (w : Ws d n ℝ) (hW : Hyper.Spec.Hermitian w.W) (e : ℝ) :
    (takeStep 0 e w).W = w.W := by
  have hD := dim_of_assoc hd
  refine lmat_injective hD ?_
  rw [lmat_takeStep hd, zero_smul]
  have : tay (0 : Matrix (Fin d × Fin n) (Fin d × Fin n) ℝ) = 1 := by simp [tay]
  rw [this, Matrix.one_mul, (hermitian_lmat hD _).1 hW, ← two_smul ℝ, smul_smul]
  norm_num

/-- Octonions: a step of size zero multiplies the scaling point with 9/4, because the step size is
applied to the slack but not to the identity part of the direction. -/
theorem C60_octonion_zero_violated (w : Ws 8 n ℝ) (hn : 0 < n) :
    (takeStepOct 0 (setIdentity w)).W = scalarMultiply (setIdentity w).W (9 / 4) ∧
      (takeStepOct 0 (setIdentity w)).W ≠ (setIdentity w).W := by
  have h : (takeStepOct 0 (setIdentity w)).W = scalarMultiply (setIdentity w).W (9 / 4) := by
    have hz : scalarMultiply (setIdentity w).minusS 0 = scalarMultiply (identity 8) 0 := by
      funext c
      ext r s
      simp [scalarMultiply]
    unfold takeStepOct
    simp only [ne_eq, zero_ne_one, not_false_eq_true, if_true, hz]
    show MatrixExp.geodesicScaled (identity 8) _ = scalarMultiply (identity 8) _
    rw [geodesicScaled_identity]
    norm_num
  refine ⟨h, fun h0 => ?_⟩
  rw [h] at h0
  have := congrFun (congrFun (congrFun h0 0) ⟨0, hn⟩) ⟨0, hn⟩
  norm_num [scalarMultiply, setIdentity, identity] at this

/-- An inequality of order one or two over octonions: `x I ≤ 3 I`. -/
noncomputable def octWitness (n : Nat) : Con 8 n ℝ :=
  ⟨[identity 8], some (scalarMultiply (identity 8) 3)⟩

theorem prepareStepOct_witness (hn : n = 1 ∨ n = 2) (w : Ws 8 n ℝ) :
    prepareStepOct (octWitness n) 1 1 (fun _ => 0) (setIdentity w) =
      .ok ({ setIdentity w with minusS := scalarMultiply (identity 8) (-3) },
        1 / 3 * (-3 * (n : ℝ) + n), traceInner (quadRep (identity 8)
          (scalarMultiply (identity 8) (-3))) (scalarMultiply (identity 8 : HMat 8 n ℝ) (-3)) +
            2 * (-3 * n) + n) := by
  have hsl : negativeSlack (octWitness n) 1 1 (fun _ => 0) =
      .ok (scalarMultiply (identity 8) (-3)) := by
    rw [negativeSlack_eq (C := scalarMultiply (identity 8) 3) rfl 1
      (le_refl 1 : (octWitness n).mats.length ≤ 1)]
    congr 1
    funext c
    ext r s
    simp [Spec.slack, scalarMultiply]
  have htr : traceInner (identity 8 : HMat 8 n ℝ) (scalarMultiply (identity 8) (-3)) = -3 * n := by
    rcases hn with rfl | rfl
    · norm_num [traceInner, identity, scalarMultiply, Fin.sum_univ_succ, Matrix.one_apply]
    · norm_num [traceInner, identity, scalarMultiply, Fin.sum_univ_succ, Matrix.one_apply]
  unfold prepareStepOct
  rw [hsl]
  simp only [Outcome.bind_ok]
  have : (setIdentity w).W = identity 8 := rfl
  rw [this, htr]

/-- Octonions: from the identity the step of the reported size ends in the zero matrix. -/
theorem C60_octonion_violated (hn : n = 1 ∨ n = 2) (w : Ws 8 n ℝ) :
    Spec.HermitianData (octWitness n) ∧
    ∃ w' b q, prepareStepOct (octWitness n) 1 1 (fun _ => 0) (setIdentity w) = .ok (w', b, q) ∧
      SolveLoop.stepSize b = 1 ∧ (takeStepOct (SolveLoop.stepSize b) w').W = Hyper.zero 8 ∧
      ¬Spec.PosDef (takeStepOct (SolveLoop.stepSize b) w').W := by
  have hid : Hyper.Spec.Hermitian (identity 8 : HMat 8 n ℝ) := (hermitian_iff _).2 conj_identity
  have hst : SolveLoop.stepSize (1 / 3 * (-3 * (n : ℝ) + n)) = 1 := by
    rcases hn with rfl | rfl <;> norm_num [SolveLoop.stepSize]
  refine ⟨⟨fun A hA => ?_, fun C hC => ?_⟩, ?_⟩
  · obtain rfl := List.mem_singleton.1 hA
    exact hid
  · obtain rfl := Option.mem_some.1 hC
    exact hermitian_scalar hid 3
  · have hz : ∀ w' : Ws 8 n ℝ, w'.W = identity 8 → w'.minusS = scalarMultiply (identity 8) (-3) →
        (takeStepOct 1 w').W = Hyper.zero 8 := by
      intro w' h1 h2
      unfold takeStepOct
      simp only [ne_eq, not_true_eq_false, if_false, h1, h2]
      rw [geodesicScaled_identity]
      funext c
      ext r s
      norm_num [scalarMultiply, Hyper.zero]
    refine ⟨_, _, _, prepareStepOct_witness hn w, hst, ?_, ?_⟩
    · rw [hst]
      exact hz _ rfl rfl
    · rw [hst, hz _ rfl rfl]
      rintro ⟨-, h⟩
      have hpos : 0 < n := by omega
      have := h (fun _ => Matrix.of fun _ _ => 1) fun h0 => by
        have := congrFun (congrFun (congrFun h0 0) ⟨0, hpos⟩) ()
        simp at this
      rw [form_eq] at this
      have h0 : lmat (Hyper.zero 8 : HMat 8 n ℝ) = 0 := by
        ext p q
        simp [lmat, Hyper.zero]
      rw [h0] at this
      simp at this

/-! ### C61 -/

/-- Over the reals, complex numbers and quaternions the approximate eigenvalues of a scaled slack lie
between the smallest and the largest eigenvalue, for every start vector and number of iterations. -/
theorem C61_within [NeZero d] (hd : d = 1 ∨ d = 2 ∨ d = 4) {sqrt : ℝ → ℝ}
    (hsq : ∀ x, 0 < x → SolveLoop.Spec.SqrtAt sqrt x) {tri : List ℝ → List ℝ → List ℝ}
    (htri : Lmi.Spec.TriEigenvalues tri) (W S : HMat d n ℝ) (hW : Spec.PosDef W)
    (hS : Hyper.Spec.Hermitian S) (lo hi : ℝ)
    (hb : ∀ μ, Spec.Eigenvalue (multiply W S) μ → lo ≤ μ ∧ μ ≤ hi) (r : Col d n ℝ) (iters : Nat)
    (q : List ℝ × List ℝ) (h : lanczos sqrt (multiply W S) W r iters = some q) :
    tri q.1 q.2 ≠ [] ∧ ∀ t ∈ tri q.1 q.2, lo ≤ t ∧ t ≤ hi := by
  have hD := dim_of_assoc hd
  have hres := lanczos_result hD h
  rw [lmat_multiply hd] at hres
  refine Lmi.result_bounds hsq htri ((posDef_lmat hD W).1 hW) ((hermitian_lmat hD S).1 hS) ?_ hres
  intro μ hμ
  exact hb μ ((eigenvalue_lmat _ _).2 (by rw [lmat_multiply hd]; exact hμ))

/-- They exist exactly if the start vector is not zero and, from order two on, is not mapped to zero by
the slack. -/
theorem C61_defined [NeZero d] (hd : d = 1 ∨ d = 2 ∨ d = 4) {sqrt : ℝ → ℝ}
    (hsq : ∀ x, 0 < x → SolveLoop.Spec.SqrtAt sqrt x) (W S : HMat d n ℝ) (hW : Spec.PosDef W)
    (hS : Hyper.Spec.Hermitian S) (r : Col d n ℝ) :
    (∃ q, lanczos sqrt (multiply W S) W r (n / 2 + 1) = some q) ↔
      r ≠ 0 ∧ (n < 2 ∨ multiply S (multiply W r) ≠ 0) := by
  have hD := dim_of_assoc hd
  have hWp := (posDef_lmat hD W).1 hW
  have hWt := Lmi.transpose_of_posDef hWp
  have hpos : ∀ v : Col d n ℝ, v ≠ 0 → 0 < inner (⟨multiply W v, v⟩ : Pair d n ℝ) ⟨multiply W v, v⟩ := by
    intro v hv
    rw [inner_fl hD]
    have := hW.2 v hv
    rw [form_eq] at this
    simp only [fl, Lanczos.inner, flat_multiply]
    rwa [dotProduct_comm]
  have hzero : inner (⟨multiply W (0 : Col d n ℝ), 0⟩ : Pair d n ℝ) ⟨multiply W 0, 0⟩ = 0 := by
    rw [inner_fl hD]
    simp only [fl, Lanczos.inner]
    have : flat (0 : Col d n ℝ) = 0 := rfl
    rw [this, dotProduct_zero]
  unfold lanczos
  simp only
  by_cases hr : r = 0
  · subst hr
    simp [hzero]
  have hp := hpos r hr
  rw [if_neg (not_le.2 hp)]
  obtain ⟨hb0, hb2⟩ := hsq _ hp
  set b := sqrt (inner (⟨multiply W r, r⟩ : Pair d n ℝ) ⟨multiply W r, r⟩)
  have hbne : b ≠ 0 := by
    intro h0
    rw [h0, mul_zero] at hb2
    exact hp.ne hb2
  set V := scale (⟨multiply W r, r⟩ : Pair d n ℝ) (1 / b) with hV
  -- the image of the start vector
  have hU : apply (multiply W S) V =
      ⟨multiply W (scalarMultiply (multiply S (multiply W r)) (1 / b)),
        scalarMultiply (multiply S (multiply W r)) (1 / b)⟩ := by
    rw [hermitian_iff] at hS
    have hWc := (hermitian_iff _).1 hW.1
    simp only [hV, apply, scale, multiply_scalar, multiply_assoc hd, conj_multiply hD, hS, hWc]
  simp only [ne_eq, hr, not_false_eq_true, true_and, Option.map_eq_some_iff]
  constructor
  · rintro ⟨q, l, hl, -⟩
    by_contra hc
    push Not at hc
    obtain ⟨hn, hz⟩ := hc
    have hz' : scalarMultiply (multiply S (multiply W r)) (1 / b) = 0 := by
      rw [hz]
      funext c
      ext i j
      simp [scalarMultiply]
    have hk : n / 2 + 1 - 1 = (n / 2 - 1) + 1 := by omega
    rw [hU, hz', hk, loop] at hl
    have h0 : inner (addPair (⟨multiply W 0, 0⟩ : Pair d n ℝ)
        (scale V (-inner V ⟨multiply W 0, 0⟩))) (addPair ⟨multiply W 0, 0⟩
          (scale V (-inner V ⟨multiply W 0, 0⟩))) = 0 := by
      have h1 : inner V ⟨multiply W 0, 0⟩ = 0 := by
        rw [inner_fl hD]
        simp only [fl, Lanczos.inner]
        have : flat (0 : Col d n ℝ) = 0 := rfl
        rw [this, dotProduct_zero]
      rw [h1, inner_fl hD, fl_sub]
      simp only [fl, Lanczos.inner, Lanczos.subSmul]
      have : flat (0 : Col d n ℝ) = 0 := rfl
      rw [this]
      simp
    rw [h0, hzero] at hl
    simp at hl
  · intro h
    rcases h with hn | hz
    · have : n / 2 + 1 - 1 = 0 := by omega
      rw [this]
      exact ⟨_, _, rfl, rfl⟩
    · have hz' : scalarMultiply (multiply S (multiply W r)) (1 / b) ≠ 0 := by
        intro h0
        refine hz ?_
        have h1 := congrArg (fun x => scalarMultiply x b) h0
        simp only [scalar_scalar'] at h1
        rw [one_div, inv_mul_cancel₀ hbne] at h1
        funext c
        ext i j
        have := congrFun (congrFun (congrFun h1 c) i) j
        simpa [scalarMultiply] using this
      obtain ⟨l, hl⟩ := loop_some sqrt (multiply W S)
        (sc := inner (apply (multiply W S) V) (apply (multiply W S) V))
        (by rw [hU]; exact hpos _ hz') (n / 2 + 1 - 1) V
        (addPair (apply (multiply W S) V) (scale V (-inner V (apply (multiply W S) V))))
      exact ⟨_, l, hl, rfl⟩

/-- A vanishing slack makes the norm undefined for every start vector. -/
theorem C61_nan_violated [NeZero d] (hd : d = 1 ∨ d = 2 ∨ d = 4) (hn : 2 ≤ n) {sqrt : ℝ → ℝ}
    (hsq : ∀ x, 0 < x → SolveLoop.Spec.SqrtAt sqrt x) (tri : List ℝ → List ℝ → List ℝ)
    (o : Con d n ℝ) (ho : Spec.HermitianData o) (C : HMat d n ℝ) (hC : o.affine = some C)
    (c e : ℝ) (y : Nat → ℝ) (h0 : Spec.slack o.mats C c y = Hyper.zero d) (w : Ws d n ℝ)
    (hW : Spec.PosDef w.W) (r : Col d n ℝ) :
    ∃ w' q, prepareStep sqrt tri r o c e o.mats.length y w = .ok (w', none, q) := by
  have hz : scalarMultiply (Hyper.zero d : HMat d n ℝ) (-1) = Hyper.zero d := by
    funext c
    ext i j
    simp [scalarMultiply, Hyper.zero]
  have hl : lanczos sqrt (multiply w.W (Hyper.zero d)) w.W r (n / 2 + 1) = none := by
    by_contra hne
    obtain ⟨q, hq⟩ := Option.ne_none_iff_exists'.1 hne
    have hS := hermitian_slack hC ho c y
    rw [h0] at hS
    have := (C61_defined hd hsq w.W (Hyper.zero d) hW hS r).1 ⟨q, hq⟩
    rcases this.2 with h | h
    · omega
    · refine h ?_
      funext c
      simp [multiply_apply, Hyper.zero]
  unfold prepareStep
  rw [negativeSlack_eq hC c (le_refl _), h0, hz]
  simp only [Outcome.bind_ok, hl]
  exact ⟨_, _, rfl⟩

/-- The slack vanishes at the start for a constraint with zero affine term. -/
example : Spec.slack [fun c => if c.1 = 0 then !![1, 0; 0, -1] else !![0, 2; -2, 0]]
    (Hyper.zero 2 : HMat 2 2 ℝ) 1 (fun _ => 0) = Hyper.zero 2 := by
  funext c
  ext i j
  simp [Spec.slack, Hyper.zero]

/-- The reported norm never exceeds the true one, and the reported sum of squares is exact (for
`e_weight = 1`). -/
theorem C61_norm [NeZero d] (hd : d = 1 ∨ d = 2 ∨ d = 4) {sqrt : ℝ → ℝ}
    (hsq : ∀ x, 0 < x → SolveLoop.Spec.SqrtAt sqrt x) {tri : List ℝ → List ℝ → List ℝ}
    (htri : Lmi.Spec.TriEigenvalues tri) (r : Col d n ℝ) (o : Con d n ℝ)
    (ho : Spec.HermitianData o) (c e : ℝ) (ny : Nat) (y : Nat → ℝ) (w w' : Ws d n ℝ)
    (hW : Spec.PosDef w.W) (b : Option ℝ) (q : ℝ)
    (h : prepareStep sqrt tri r o c e ny y w = .ok (w', b, q)) :
    (∀ b', b = some b' → ∀ B, (∀ μ, Spec.Eigenvalue w'.WS μ → |μ + e| ≤ B) → b' ≤ B) ∧
    ∃ C, o.affine = some C ∧ (e = 1 →
      let T := Hyper.add (identity d) (scalarMultiply (multiply w.W (Spec.slack o.mats C c y)) (-1))
      q = (multiply T T 0).trace) := by
  have hD := dim_of_assoc hd
  obtain ⟨C, hC, -, -, h2, h3, h4⟩ := prepareStep_inv h
  constructor
  · rintro b' rfl B hB
    obtain ⟨x, hx, rfl⟩ := Option.map_eq_some_iff.1 h3.symm
    obtain ⟨l, hl, h1, h2', -⟩ := extremes_some hx
    rw [h2] at hl hB
    have hin := (C61_within hd hsq htri w.W _ hW (hermitian_scalar (hermitian_slack hC ho c y) (-1))
      (-B - e) (B - e) (fun μ hμ => by
        have := abs_le.1 (hB μ hμ)
        constructor <;> linarith) r _ l hl).2
    have k1 := hin _ h1
    have k2 := hin _ h2'
    split_ifs <;> rw [abs_le] <;> constructor <;> linarith
  · refine ⟨C, hC, fun _ => ?_⟩
    rw [multiply_scalar] at h2
    intro T
    have hT : T = Hyper.add (identity d) w'.WS := by rw [h2]
    rw [hT, h4]
    simp only [Hyper.multiply_add, Hyper.add_multiply, one_multiply hD, Hyper.multiply_one hD]
    simp only [Hyper.add, Matrix.trace_add]
    have : (identity d (0 : Fin d) : Matrix (Fin n) (Fin n) ℝ) = 1 := by simp [identity]
    rw [this, Matrix.trace_one, Fintype.card_fin]
    ring

/-- The eigenvalue summary: the bounds lie within the spectrum. -/
theorem C61_slack [NeZero d] (hd : d = 1 ∨ d = 2 ∨ d = 4) {sqrt : ℝ → ℝ}
    (hsq : ∀ x, 0 < x → SolveLoop.Spec.SqrtAt sqrt x) {tri : List ℝ → List ℝ → List ℝ}
    (htri : Lmi.Spec.TriEigenvalues tri) (r : Col d n ℝ) (o : Con d n ℝ)
    (ho : Spec.HermitianData o) (w : Ws d n ℝ) (hW : Spec.PosDef w.W) (ny : Nat) (y : Nat → ℝ) (c : ℝ)
    (p p' : Divergence.Slack ℝ) (h : slackData sqrt tri r o w ny y c p = .ok (some p')) :
    ∃ C, o.affine = some C ∧
      p'.trace = (multiply w.W (Spec.slack o.mats C c y) 0).trace ∧
      p'.frob = (multiply (multiply w.W (Spec.slack o.mats C c y))
        (multiply w.W (Spec.slack o.mats C c y)) 0).trace ∧
      p'.rank = p.rank ∧ p'.lmin ≤ p'.lmax ∧
      ∀ lo hi, (∀ μ, Spec.Eigenvalue (multiply w.W (Spec.slack o.mats C c y)) μ → lo ≤ μ ∧ μ ≤ hi) →
        lo ≤ p'.lmin ∧ p'.lmax ≤ hi := by
  unfold slackData at h
  cases hs : negativeSlack o c ny y with
  | throws => simp [hs] at h
  | ub => simp [hs] at h
  | diverges => simp [hs] at h
  | ok S =>
    obtain ⟨C, hC, -, rfl⟩ := negativeSlack_inv hs
    simp only [hs, Outcome.bind_ok, Outcome.ok.injEq, Option.map_eq_some_iff] at h
    obtain ⟨x, hx, rfl⟩ := h
    obtain ⟨l, hl, h1, h2, h3⟩ := extremes_some hx
    refine ⟨C, hC, ?_, ?_, rfl, neg_le_neg h3, fun lo hi hb => ?_⟩
    · simp only [multiply_scalar]
      rw [Hyper.scalar_apply, Matrix.trace_smul]
      simp
    · simp only [multiply_scalar, scalar_multiply]
      rw [Hyper.scalar_apply, Hyper.scalar_apply]
      simp
    · have hin := (C61_within hd hsq htri w.W _ hW
        (hermitian_scalar (hermitian_slack hC ho c y) (-1)) (-hi) (-lo) (fun μ hμ => by
          obtain ⟨v, hv, he⟩ := hμ
          have := hb (-μ) ⟨v, hv, fun c' r' => by
            have := he c' r'
            rw [multiply_scalar, scalar_multiply] at this
            simp only [scalarMultiply] at this
            linarith⟩
          constructor <;> linarith) r _ l hl).2
      have k1 := hin _ h1
      have k2 := hin _ h2
      constructor <;> linarith

/-- Octonions: the reported norm can be negative; the true one is 2 here. -/
theorem C61_octonion_norm_violated (w : Ws 8 1 ℝ) :
    ∃ w' b q, prepareStepOct (octWitness 1) 1 1 (fun _ => 0) (setIdentity w) = .ok (w', b, q) ∧
      b = -2 / 3 ∧ Spec.Eigenvalue (multiply w'.W w'.minusS) (-3) := by
  have hD : Dim 8 := .inr (.inr (.inr rfl))
  refine ⟨_, _, _, prepareStepOct_witness (.inl rfl) w, by norm_num, ?_⟩
  refine ⟨fun _ => Matrix.of fun _ _ => 1, fun h0 => ?_, fun c r => ?_⟩
  · have := congrFun (congrFun (congrFun h0 0) 0) ()
    simp at this
  · show multiply (multiply (identity 8) (scalarMultiply (identity 8) (-3))) _ c r () = _
    rw [one_multiply hD, scalar_multiply, one_multiply hD]
    simp [scalarMultiply]

/-- Octonions: the reported bounds of the eigenvalues can be far outside the spectrum. -/
theorem C61_octonion_slack_violated (w : Ws 8 2 ℝ) (p : Divergence.Slack ℝ) :
    ∃ p', slackDataOct ⟨[], some fun c => if c.1 = 0 then !![1, 0; 0, -1] else 0⟩ (setIdentity w) 0
        (fun _ => 0) 1 p = .ok p' ∧ p'.lmin = 2 * 10 ^ 13 ∧ p'.lmax = 2 * 10 ^ 15 := by
  have hs : negativeSlack (⟨[], some fun c => if c.1 = 0 then !![1, 0; 0, -1] else 0⟩ : Con 8 2 ℝ) 1 0
      (fun _ => 0) = .ok (fun c => if c.1 = 0 then !![-1, 0; 0, 1] else 0) := by
    rw [negativeSlack_eq rfl 1 (le_refl 0)]
    congr 1
    funext c
    ext i j
    simp only [scalarMultiply, Spec.slack]
    split_ifs
    · fin_cases i <;> fin_cases j <;> simp
    · simp
  unfold slackDataOct
  rw [hs]
  refine ⟨_, rfl, ?_, ?_⟩
  all_goals
    show _ = _
    have : (setIdentity w).W = identity 8 := rfl
    simp only [this, quadRep_identity]
    norm_num [traceInner, identity, Fin.sum_univ_succ, Matrix.one_apply]

/-! ### C62 -/

section Schur

open Verif.Schur

variable {R : Type} [Field R] [LinearOrder R] [IsStrictOrderedRing R]

/-- The system that an inequality contributes, in its first rows, when it is initialised and when it is
added. -/
theorem C62_schur [NeZero d] (hd : Dim d) (o : Con d n R) (ho : Spec.HermitianData o) (W : HMat d n R)
    (hW : Hyper.Spec.Hermitian W) (C : HMat d n R) (hC : o.affine = some C) (s : Sys R)
    (hr : o.mats.length ≤ s.rows) :
    (∃ t, schur o W true s = .ok t ∧ t.rows = s.rows ∧
      Spec.Contributes (quadRep W) o.mats C W t.G t.AW t.AQc t.wc t.cQc) ∧
    (∃ t, schur o W false s = .ok t ∧ t.rows = s.rows ∧
      Spec.Contributes (quadRep W) o.mats C W (fun i j => t.G i j - s.G i j)
        (fun i => t.AW i - s.AW i) (fun i => t.AQc i - s.AQc i) (t.wc - s.wc) (t.cQc - s.cQc)) := by
  have hWc := (hermitian_iff _).1 hW
  have hz : (Hyper.zero d : HMat d n R) = fun _ => 0 := rfl
  have hA : ∀ i < o.mats.length, conjTranspose (o.mats.getD i fun _ => 0) = o.mats.getD i fun _ => 0 := by
    intro i hi
    rw [List.getD_eq_getElem?_getD, List.getElem?_eq_getElem hi, Option.getD_some]
    exact (hermitian_iff _).1 (ho.1 _ (List.getElem_mem hi))
  have hin : ∀ X Y : HMat d n R, traceInner X Y = Spec.inner X Y := by
    intro X Y
    unfold traceInner Spec.inner
    exact sum_congr rfl fun c _ => sum_comm
  have hQ : ∀ X : HMat d n R, (if d = 8 then quadRep W X else multiply W (multiply X W)) =
      quadRep W X := by
    intro X
    split_ifs with h8
    · rfl
    · have hd' : d = 1 ∨ d = 2 ∨ d = 4 := by
        rcases hd with h | h | h | h
        · exact .inl h
        · exact .inr (.inl h)
        · exact .inr (.inr h)
        · exact absurd h h8
      rw [quadRep_assoc hd', multiply_assoc hd']
  have hAW : ∀ i < o.mats.length, (if d = 8 then traceInner (o.mats.getD i fun _ => 0) W
      else (multiply (o.mats.getD i fun _ => 0) W 0).trace) =
        Spec.inner (o.mats.getD i fun _ => 0) W := by
    intro i hi
    split_ifs with h8
    · exact hin _ _
    · rw [← hin, traceInner_retr hd, hA i hi, retr_zero]
  have hAC : ∀ i, traceInner C (quadRep W (o.mats.getD i fun _ => 0)) =
      Spec.inner (o.mats.getD i fun _ => 0) (quadRep W C) := by
    intro i
    rw [← hin, ← traceInner_quadRep hd hWc, traceInner_comm]
  unfold schur
  simp only [if_neg (not_lt.2 hr), hC, hz, hQ, if_true, Bool.false_eq_true, if_false]
  refine ⟨⟨_, rfl, rfl, ?_, ?_, ?_, ?_, ?_⟩, ⟨_, rfl, rfl, ?_, ?_, ?_, ?_, ?_⟩⟩
  · intro i hi j hj
    simp only [hi, hj, and_self, if_true, hin]
  · intro i hi
    simp only [hi, if_true, hAW i hi]
  · intro i hi
    simp only [hi, if_true, hAC]
  · exact hin _ _
  · exact hin _ _
  · intro i hi j hj
    simp only [hi, hj, and_self, if_true, hin, add_sub_cancel_left]
  · intro i hi
    simp only [hi, if_true, hAW i hi, add_sub_cancel_left]
  · intro i hi
    simp only [hi, if_true, hAC, add_sub_cancel_left]
  · simp only [add_sub_cancel_left, hin]
  · simp only [add_sub_cancel_left, hin]

/-- A complex constraint and scaling point. -/
example : Spec.HermitianData (⟨[fun c => if c = 0 then !![1, 0; 0, 2] else !![0, 1; -1, 0]],
    some fun c => if c = 0 then !![2, 0; 0, 1] else !![0, 3; -3, 0]⟩ : Con 2 2 ℚ) ∧
      Hyper.Spec.Hermitian (fun c => if c = 0 then !![3, 0; 0, 2] else !![0, 1; -1, 0] : HMat 2 2 ℚ) := by
  refine ⟨⟨?_, ?_⟩, ?_⟩
  · simp only [List.mem_singleton, forall_eq]
    intro c r s
    fin_cases c <;> fin_cases r <;> fin_cases s <;> simp
  · simp only [Option.mem_def, Option.some.injEq, forall_eq']
    intro c r s
    fin_cases c <;> fin_cases r <;> fin_cases s <;> simp
  · intro c r s
    fin_cases c <;> fin_cases r <;> fin_cases s <;> simp

/-- Rows beyond the matrices of the constraint keep what was there, also when the system is
initialised. -/
theorem C62_unwritten_violated [NeZero d] (o : Con d n R) (W C : HMat d n R) (hC : o.affine = some C)
    (s : Sys R) (hr : o.mats.length < s.rows) :
    ∃ t, schur o W true s = .ok t ∧ ∀ i, o.mats.length ≤ i → (∀ j, t.G i j = s.G i j) ∧
      t.AW i = s.AW i ∧ t.AQc i = s.AQc i := by
  unfold schur
  simp only [if_neg (not_lt.2 hr.le), hC]
  refine ⟨_, rfl, fun i hi => ⟨fun j => ?_, ?_, ?_⟩⟩
  · exact if_neg fun h => absurd h.1 (not_lt.2 hi)
  · exact if_neg (not_lt.2 hi)
  · exact if_neg (not_lt.2 hi)

/-- A constraint made from its order, whose affine term nobody set, ends every solve with an exception:
there is no matrix of zeros to stand for the affine term. -/
theorem C62_unset_violated [NeZero d] (sqrt : R → R) (tri : List R → List R → List R) (r : Col d n R)
    (k e : R) (ny : Nat) (y : Nat → R) (w : Ws d n R) (init : Bool) (s : Sys R) (o : Con d n R)
    (ho : o.affine = none) (hr : o.mats.length ≤ s.rows) :
    schur o w.W init s = .throws ∧ prepareStep sqrt tri r o k e ny y w = .throws := by
  constructor
  · simp [schur, ho, not_lt.2 hr]
  · simp [prepareStep, negativeSlack, ho]

/-- It is empty in a new constraint. -/
example : (newCon 2 3 ℚ).affine = none := rfl

end Schur

/-- Over the reals, complex numbers and quaternions the matrix of the system is positive semidefinite,
and definite on combinations that do not vanish. -/
theorem C62_definite (hd : d = 1 ∨ d = 2 ∨ d = 4) (A : Nat → HMat d n ℝ) (m : Nat)
    (hA : ∀ i < m, Hyper.Spec.Hermitian (A i)) {W : HMat d n ℝ} (hW : Spec.PosDef W) (y : Nat → ℝ) :
    0 ≤ ∑ i ∈ range m, ∑ j ∈ range m, y i * y j * Spec.inner (A i) (quadRep W (A j)) ∧
      (∑ i ∈ range m, ∑ j ∈ range m, y i * y j * Spec.inner (A i) (quadRep W (A j)) = 0 ↔
        ∀ c r s, ∑ i ∈ range m, y i * A i c r s = 0) := by
  have hD := dim_of_assoc hd
  set B : HMat d n ℝ := fun c r s => ∑ i ∈ range m, y i * A i c r s with hB
  have hBh : Hyper.Spec.Hermitian B := by
    intro c r s
    simp only [hB]
    have := fun i hi => hA i hi c r s
    split_ifs at this ⊢ with h0
    · exact sum_congr rfl fun i hi => by rw [this i (mem_range.1 hi)]
    · rw [← sum_neg_distrib]
      exact sum_congr rfl fun i hi => by rw [this i (mem_range.1 hi)]; ring
  have hlB : lmat B = ∑ i ∈ range m, y i • lmat (A i) := by
    ext p q
    simp only [lmat, hB, Matrix.sum_apply, Matrix.smul_apply, smul_eq_mul, mul_sum]
    rw [sum_comm]
    exact sum_congr rfl fun i _ => sum_congr rfl fun c _ => by ring
  have hip : ∀ i < m, ∀ j, (d : ℝ) * Spec.inner (A i) (quadRep W (A j)) =
      (lmat (A i) * (lmat W * lmat (A j) * lmat W)).trace := by
    intro i hi j
    have e1 : Spec.inner (A i) (quadRep W (A j)) = traceInner (A i) (quadRep W (A j)) := by
      unfold traceInner Spec.inner
      exact sum_congr rfl fun c _ => sum_comm
    rw [e1, traceInner_retr hD, (hermitian_iff _).1 (hA i hi), ← trace_lmat hD, quadRep_assoc hd]
    simp only [lmat_multiply hd]
  have hsum : (d : ℝ) * ∑ i ∈ range m, ∑ j ∈ range m, y i * y j * Spec.inner (A i) (quadRep W (A j)) =
      (lmat B * (lmat W * lmat B * lmat W)).trace := by
    rw [hlB]
    simp only [Matrix.sum_mul, Matrix.mul_sum, Matrix.smul_mul, Matrix.mul_smul, trace_sum,
      trace_smul, smul_eq_mul, mul_sum]
    rw [sum_comm]
    refine sum_congr rfl fun i _ => sum_congr rfl fun j hj => ?_
    rw [← hip j (mem_range.1 hj) i]
    ring
  have hd0 : (0 : ℝ) < d := by
    have : 0 < d := by omega
    exact_mod_cast this
  obtain ⟨h1, h2⟩ := Lmi.trace_congruence ((posDef_lmat hD W).1 hW) ((hermitian_lmat hD B).1 hBh)
  rw [← hsum] at h1 h2
  refine ⟨nonneg_of_mul_nonneg_right h1 hd0, ?_⟩
  rw [mul_eq_zero, or_iff_right hd0.ne'] at h2
  rw [h2]
  constructor
  · intro h c r s
    have h0 : lmat B = lmat (fun _ => 0 : HMat d n ℝ) := by
      rw [h]
      ext p q
      simp [lmat]
    exact congrFun (congrFun (congrFun (lmat_injective hD h0) c) r) s
  · intro h
    ext p q
    simp [lmat, hB, h]

end Verif.HermLmi
