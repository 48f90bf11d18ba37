import Verif.Lemmas.ConeBaseVanish
import Verif.Lemmas.MatlabFaithful

/-!
# Properties of the class `coneBase` of the MATLAB interface (C83, C84)
-/

namespace Verif.ConeBase

open Spec
open scoped BigOperators

/-! ### C83: the layout and the operations on symmetric matrices -/

/-- The ranges from `Kstart` to `Kend`, in the order of the cones, number the variables from 1 on without gap or
overlap. -/
theorem C83_layout (K : Cone) :
    ranges (startF K) (endF K) ++ ranges (startL K) (endL K) ++ ranges (startQ K) (endQ K) ++
      ranges (startR K) (endR K) ++ ranges (startS K) (endS K) = List.range' 1 (dim K) := layout K

/-- `NumVar` is the number of variables; `flqrIndx` and `NumFlqrVars` give the number of those before the
semidefinite cones. -/
theorem C83_counts (K : Cone) : numVars K = dim K ∧ flqrEnd K = before K ∧ numFlqrVars K = before K := by
  refine ⟨numVars_eq K, flqr_end K, ?_⟩
  unfold numFlqrVars
  rw [flqr_end]
  omega

/-- Fields of the argument that are missing or empty count for nothing, and the others are kept. -/
theorem C83_fields (K : RawCone) :
    numVars (cleanK K) = (K.f.getD none).getD 0 + (K.l.getD none).getD 0 + (K.q.getD []).sum + (K.r.getD []).sum +
      ((K.s.getD []).map fun n => n * n).sum ∧
    (∀ q, K.q = some q → q ≠ [] → (cleanK K).q = q) ∧ (∀ r, K.r = some r → r ≠ [] → (cleanK K).r = r) ∧
    ∀ s, K.s = some s → s ≠ [] → (cleanK K).s = s := by
  have hv : ∀ (v : Option (List Nat)) q, v = some q → q ≠ [] → cleanVector v = q := by
    rintro _ q rfl h
    cases q with
    | nil => exact absurd rfl h
    | cons a l => rfl
  have hs : ∀ v : Option (List Nat), (cleanVector v).sum = (v.getD []).sum := by
    intro v
    rcases v with - | (- | ⟨a, l⟩) <;> simp [cleanVector]
  have hc : ∀ v : Option (Option Nat), cleanScalar v = (v.getD none).getD 0 := by
    intro v
    rcases v with - | (- | n) <;> rfl
  have hn : ∀ l : List Nat, Matlab.numVar l = (l.map fun n => n * n).sum := by
    intro l
    induction l with
    | nil => rfl
    | cons a l ih => simp [Matlab.numVar, ih]
  refine ⟨?_, hv _, hv _, hv _⟩
  have h4 : Matlab.numVar (cleanVector K.s) = ((K.s.getD []).map fun n => n * n).sum := by
    rw [hn]
    rcases K.s with - | (- | ⟨a, l⟩) <;> simp [cleanVector]
  simp only [numVars, cleanK, hs, hc, h4]

example : numVars (cleanK ⟨none, some none, some [], some [3], some [2]⟩) = 7 := by decide

/-- `ColIndx` gives the first and the last position of a column of a matrix of positive order: behind the variables
that are not in matrices, the matrices before, and the columns before. -/
theorem C83_column (K : Cone) (k col n : Nat) (hk : K.s[k]? = some n) (hn : 0 < n) :
    colIndx K (k + 1) col = .ok (some
      (before K + ((K.s.take k).map fun m => m * m).sum + (col - 1) * n + 1,
        before K + ((K.s.take k).map fun m => m * m).sum + (col - 1) * n + n)) := by
  obtain ⟨hl, hg⟩ := List.getElem?_eq_some_iff.1 hk
  have hany : anyPos K.s = true := by
    rw [anyPos, List.any_eq_true]
    exact ⟨n, hg ▸ List.getElem_mem hl, by simpa using hn.ne'⟩
  have hs : startS K = startsFrom (offsetS K) (K.s.map fun n => n * n) := if_pos hany
  have hlen : (startS K).length = K.s.length := by rw [hs, startsFrom_length, List.length_map]
  have h1 : getIndxS K (k + 1) = .ok (some ((startS K).getD k 0, (endS K).getD k 0)) := by
    unfold getIndxS
    rw [if_neg (by intro h0; rw [h0] at hlen; simp at hlen; omega), if_neg (by omega)]
    rfl
  have hd : K.s.getD k 0 = n := by rw [List.getD_eq_getElem?_getD, hk, Option.getD_some]
  simp only [colIndx, h1, Outcome.bind_ok, Option.isNone_some, Bool.false_eq_true, if_false, Nat.add_sub_cancel, hd,
    Option.getD_some]
  rw [hs, startsFrom_get _ _ _ (by simpa using hl), offsetS_eq, List.map_take]
  congr 3 <;> omega

example : colIndx ⟨1, 0, [0], [0], [2, 3]⟩ 2 2 = .ok (some (9, 11)) := by decide

/-- `AnyConicVars` tells whether there are variables that are not free. -/
theorem C83_conic (K : Cone) : anyConicVars K = true ↔ 0 < K.l + K.q.sum + K.r.sum + K.s.sum := any_conic K

/-- The entries at `indxNNeg` are nonnegative for the vectors of the cone, if no size 0 stands among sizes of Lorentz
cones. -/
theorem C83_nonneg_partial (K : Cone) (hq : (∀ n ∈ K.q, n = 0) ∨ ∀ n ∈ K.q, 0 < n)
    (hr : (∀ n ∈ K.r, n = 0) ∨ ∀ n ∈ K.r, 0 < n) (x : Nat → ℝ) (hx : InCone K x) : ∀ i ∈ indxNNeg K, 0 ≤ x i :=
  nonneg_entries hq hr hx

/-- With a rotated cone of size 0 after another, `indxNNeg` contains an entry of a semidefinite matrix off the
diagonal, which may be negative. -/
theorem C83_nonneg_violated : ∃ (K : Cone) (x : Nat → ℝ), InCone K x ∧ ∃ i ∈ indxNNeg K, x i < 0 := by
  let x : Nat → ℝ := fun k => if k = 3 ∨ k = 6 then 1 else if k = 4 ∨ k = 5 then -1 else 0
  refine ⟨⟨0, 0, [0], [2, 0], [2]⟩, x, ⟨?_, ?_, ?_, ?_⟩, 4, by decide, by simp [x]⟩
  · intro i h1 h2
    simp only at h1 h2
    omega
  · simp [Lorentz]
  · simp [Rotated, x]
  · refine ⟨?_, trivial⟩
    have e : (Matrix.of fun i j : Fin 2 => x (before ⟨0, 0, [0], [2, 0], [2]⟩ + 1 + (i + 2 * j))) =
        Matrix.vecMulVec ![1, -1] (star ![1, -1]) := by
      ext i j
      fin_cases i <;> fin_cases j <;> simp [x, before, Matrix.vecMulVec]
    rw [e]
    exact Matrix.posSemidef_vecMulVec_self_star _

/-- `Symmetrize` gives symmetric matrices and changes no inner product with symmetric matrices. -/
theorem C83_symmetrize (K : Cone) (a : Nat → ℝ) :
    Spec.Symmetric K.s (before K + 1) (symmetrize K a) ∧
      ∀ X, Spec.Symmetric K.s (before K + 1) X → Spec.inner K (symmetrize K a) X = Spec.inner K a X := by
  constructor
  · rw [symmetric_iff]
    intro k h1 h2
    obtain ⟨o1, o2, o3⟩ := opp_spec K h1 h2
    rw [symmetrize_get K a h1 h2, symmetrize_get K a o1 o2, o3, add_comm]
  · intro X hX
    rw [symmetric_iff] at hX
    unfold Spec.inner
    have e : ∀ k ∈ Finset.Icc 1 (dim K), symmetrize K a k * X k = a k * X k / 2 + a (opp K k) * X (opp K k) / 2 := by
      intro k hk
      have hk := Finset.mem_Icc.1 hk
      rw [symmetrize_get K a hk.1 hk.2, hX k hk.1 hk.2]
      ring
    rw [Finset.sum_congr rfl e, Finset.sum_add_distrib, sum_opp K fun k => a k * X k / 2, ← Finset.sum_add_distrib]
    exact Finset.sum_congr rfl fun k _ => by ring

/-- `Symmetrize` changes nothing but the entries of semidefinite matrices that are not symmetric. -/
theorem C83_symmetrize_id (K : Cone) (a : Nat → ℝ) (ha : Spec.Symmetric K.s (before K + 1) a) :
    ∀ k, 1 ≤ k → k ≤ dim K → symmetrize K a k = a k := by
  intro k h1 h2
  rw [symmetrize_get K a h1 h2, (symmetric_iff K a).1 ha k h1 h2]
  ring

/-- `mats` is the adjoint of `LowerTri` on symmetric matrices. -/
theorem C83_mats (K : Cone) (v : List ℝ) (hv : v.length = (lowerTriIndx K).length) (X : Nat → ℝ)
    (hX : Spec.Symmetric K.s (before K + 1) X) : Spec.inner K (mats K v) X = dot v (lowerTri K X) := by
  obtain ⟨g, rfl⟩ := exists_fun (fst_nodup K) hv
  exact mats_adjoint K g X ((symmetric_iff K X).1 hX)

/-- `InitSymmetric` gives the symmetric matrices with the given lower triangles, which `LowerTri` and `UpperTri`
return. -/
theorem C83_init (K : Cone) (v : List ℝ) (hv : v.length = (lowerTriIndx K).length) :
    Spec.Symmetric K.s (before K + 1) (initSymmetric K v) ∧ lowerTri K (initSymmetric K v) = v ∧
      upperTri K (initSymmetric K v) = v := by
  obtain ⟨g, rfl⟩ := exists_fun (fst_nodup K) hv
  have hsym : ∀ k, 1 ≤ k → k ≤ dim K → initSymmetric K ((lowerTriIndx K).map g) (opp K k) =
      initSymmetric K ((lowerTriIndx K).map g) k := by
    intro k h1 h2
    obtain ⟨o1, o2, o3⟩ := opp_spec K h1 h2
    rw [init_get K g h1 h2, init_get K g o1 o2, o3]
    by_cases h : k ∈ lowerTriIndx K
    · by_cases h' : opp K k ∈ lowerTriIndx K
      · rw [if_pos h, if_pos h', diag_of_both h h']
      · rw [if_pos h, if_neg h']
    · rw [if_neg h, if_pos ((mem_or K h1 h2).resolve_left h)]
  have hlow : ∀ i ∈ lowerTriIndx K, initSymmetric K ((lowerTriIndx K).map g) i = g i := by
    intro i hi
    have := mem_fst hi
    rw [init_get K g this.1 this.2.1, if_pos hi]
  refine ⟨(symmetric_iff K _).2 hsym, List.map_congr_left hlow, ?_⟩
  unfold upperTri
  rw [upper_map, List.map_map]
  refine List.map_congr_left fun i hi => ?_
  have := mem_fst hi
  rw [Function.comp, hsym i this.1 this.2.1, hlow i hi]

/-- `Desymmetrize` keeps the inner products of symmetric matrices, with no entry above the diagonals. -/
theorem C83_desymmetrize (K : Cone) (hs : 0 < K.s.sum) (a : Nat → ℝ) (ha : Spec.Symmetric K.s (before K + 1) a) :
    (∀ X, Spec.Symmetric K.s (before K + 1) X → Spec.inner K (desymmetrize K a) X = Spec.inner K a X) ∧
      ∀ k, 1 ≤ k → k ≤ dim K → Above K.s (before K + 1) k → desymmetrize K a k = 0 := by
  refine ⟨fun X hX => desym_inner hs a X ((symmetric_iff K a).1 ha) ((symmetric_iff K X).1 hX), ?_⟩
  intro k h1 h2 h
  rw [desym_get hs, if_neg ((above_iff K h1 h2).1 h)]

/-- `mats` after `LowerTri` of `Desymmetrize` gives the matrix back. -/
theorem C83_desymmetrize_mats (K : Cone) (hs : 0 < K.s.sum) (a : Nat → ℝ)
    (ha : Spec.Symmetric K.s (before K + 1) a) :
    ∀ k, 1 ≤ k → k ≤ dim K → mats K (lowerTri K (desymmetrize K a)) k = a k := by
  intro k h1 h2
  have hsym := (symmetric_iff K a).1 ha
  obtain ⟨o1, o2, o3⟩ := opp_spec K h1 h2
  unfold lowerTri
  rw [mats_get K _ h1 h2, desym_get hs, desym_get hs, o3, hsym k h1 h2]
  by_cases ho : opp K k = k
  · have hl : k ∈ lowerTriIndx K := by
      rcases mem_or K h1 h2 with h | h
      · exact h
      · rwa [ho] at h
    rw [ho]
    simp only [hl, if_true]
    ring
  · have ho' : ¬ k = opp K k := fun h => ho h.symm
    rcases mem_or K h1 h2 with h | h
    · have h' : opp K k ∉ lowerTriIndx K := fun h' => ho (diag_of_both h h')
      simp only [h, h', ho, if_true, if_false]
      ring
    · have h' : k ∉ lowerTriIndx K := fun h' => ho (diag_of_both h' h)
      simp only [h, h', ho', if_true, if_false]
      ring

/-- One of each kind of cone, with matrices of the orders 2 and 1. -/
example : dim ⟨1, 2, [3], [2], [2, 1]⟩ = 13 ∧ indxNNeg ⟨1, 2, [3], [2], [2, 1]⟩ = [2, 3, 4, 7, 8, 9, 12, 13] ∧
    lowerTriIndx ⟨1, 2, [3], [2], [2, 1]⟩ = [1, 2, 3, 4, 5, 6, 7, 8, 9, 10, 12, 13] ∧
    upperTriIndx ⟨1, 2, [3], [2], [2, 1]⟩ = [1, 2, 3, 4, 5, 6, 7, 8, 9, 11, 12, 13] := by decide +kernel

example : (List.range 5).map (desymmetrize ⟨0, 0, [0], [0], [2]⟩ fun k => (if k = 1 then 1 else if k = 4 then 3 else 2 : ℚ)) =
    [0, 1, 4, 0, 3] := by decide +kernel

example : Spec.Symmetric [2] 1 fun k => (if k = 1 then 1 else if k = 4 then 3 else 2 : ℝ) := by
  refine ⟨fun i hi j hj => ?_, trivial⟩
  interval_cases i <;> interval_cases j <;> simp

example : (∀ n ∈ [3, 2], 0 < n) ∧ InCone ⟨1, 2, [3], [0], [1]⟩ (fun k => if k = 4 then 5 else 3) := by
  refine ⟨by simp, ⟨?_, ?_, ?_, ?_⟩⟩
  · intro i _ _
    by_cases h : i = 4
    · simp [h]
    · simp [h]
  · simp [Lorentz, Finset.sum_Ico_succ_top]
    norm_num
  · simp [Rotated]
  · refine ⟨?_, trivial⟩
    refine (Matlab.psd_one _ (a := 3) (by simp [before])).2 ?_
    norm_num

/-! ### C84: `FindMustVanish` -/

/-- If the entries at `indx` of a vector of the cone are 0 then so are those at the indices that are returned, when at
most one of the former lies on the diagonal of a matrix.  Missing: several entries on diagonals, see
`C84_diagonals_violated` and `C84_unsound_violated`. -/
theorem C84_sound_partial (e : Bool) (K : Cone) (indx : List Nat) (z : List Int) (N : NewCone)
    (h : findMustVanish e K indx = .ok (z, N))
    (h1 : ∀ i ∈ indx, ∀ j ∈ indx, OnDiagonal K.s (before K + 1) i → OnDiagonal K.s (before K + 1) j → i = j)
    (x : Nat → ℝ) (hx : InCone K x) (h0 : ∀ i ∈ indx, x i = 0) :
    ∀ i ∈ z, ∃ k : Nat, i = (k : Int) ∧ x k = 0 := by
  have hz : Zero K x ((uniq indx).map fun i : Nat => (i : Int)) := by
    intro i hi
    obtain ⟨k, hk, rfl⟩ := List.mem_map.1 hi
    exact ⟨k, rfl, h0 k (mem_uniq.1 hk)⟩
  have h0' : ∀ i ∈ uniq indx, x i = 0 := fun i hi => h0 i (mem_uniq.1 hi)
  unfold findMustVanish at h
  simp only at h
  split at h
  · have := congrArg Prod.fst (Outcome.ok.inj h)
    simp only at this
    rw [← this]
    exact hz
  · obtain ⟨u, -, h⟩ := SolveLoop.bind_eq_ok.1 h
    obtain ⟨w, hw, h⟩ := SolveLoop.bind_eq_ok.1 h
    have hw' := vanishR_sound hw hx h0' hz
    exact vanishS_sound h (fun i hi j hj => h1 i (mem_uniq.1 hi) j (mem_uniq.1 hj)) hx h0' hw'

/-- A free variable, a rotated cone and two matrices: the first entry of the cone and one entry on a diagonal. -/
example : findMustVanish true ⟨1, 0, [0], [3], [2, 2]⟩ [2, 9] =
      .ok ([2, 9, 4, 9, 10, 9, 11], ⟨1, 0, [0], [1], [2, 1]⟩) ∧
    OnDiagonal [2, 2] (before ⟨1, 0, [0], [3], [2, 2]⟩ + 1) 9 ∧
    ¬ OnDiagonal [2, 2] (before ⟨1, 0, [0], [3], [2, 2]⟩ + 1) 2 := by
  refine ⟨by decide +kernel, .inr (.inl ⟨0, by omega, by simp [before]⟩), ?_⟩
  rw [onDiagonal_iff_aux]
  simp [before]

/-- The entry `(t, t)` of the matrix `b`, alone: the function returns the row and the column, and takes 1 off the order
of the matrix. -/
theorem C84_row (e : Bool) (K : Cone) (hq : ∀ n ∈ K.q, n = 0) (hr : ∀ n ∈ K.r, n = 0) (b t : Nat)
    (hb : b < K.s.length) (ht : t < K.s.getD b 0) :
    let a := before K + 1 + ((K.s.take b).map fun n => n * n).sum
    let n := K.s.getD b 0
    ∃ z, findMustVanish e K [a + (t + n * t)] = .ok (z, { NewCone.of K with
        s := (K.s.map fun n : Nat => (n : Int)).modify b (· - 1) }) ∧
      ∀ i : Int, i ∈ z ↔ ∃ k < n, i = ((a + (k + n * t) : Nat) : Int) ∨ i = ((a + (t + n * k) : Nat) : Int) := by
  intro a n
  have hsum : K.q.sum = 0 := sum_zero hq
  have hrsum : K.r.sum = 0 := sum_zero hr
  have hQ : startQ K = [] := by
    unfold startQ
    rw [if_neg]
    intro h
    have := (anyPos_iff _).1 h
    omega
  have hR : startR K = [] := by
    unfold startR
    rw [if_neg]
    intro h
    have := (anyPos_iff _).1 h
    omega
  have hD := onDiagonal_block K.s (before K + 1) b t hb ht
  have hu : uniq [a + (t + n * t)] = [a + (t + n * t)] := by
    unfold uniq
    simp
  have hFL : vanishFL K [a + (t + n * t)] (NewCone.of K) = NewCone.of K := by
    have hF : ¬ a + (t + n * t) ≤ (endF K).headD 0 := by
      unfold endF startF
      by_cases h : K.f = 0
      · simp [h, a]
      · simp [h, a, before]
        omega
    have hL : ¬ a + (t + n * t) ≤ (endL K).headD 0 := by
      unfold endL startL
      by_cases h : K.l = 0
      · simp [h, a]
      · simp [h, a, before]
        omega
    unfold vanishFL
    simp only [List.filter_cons, List.filter_nil, hF, hL, decide_false, Bool.and_false]
    simp
  obtain ⟨rc, e1, e2⟩ := vanishS_one (indx := [a + (t + n * t)])
    (z := ([((a + (t + n * t) : Nat) : Int)], NewCone.of K)) hb ht
    (diag_single (d := a + (t + n * t)) (by simp) hD (by simp))
  refine ⟨[((a + (t + n * t) : Nat) : Int)] ++ rc, ?_, ?_⟩
  · unfold findMustVanish
    simp only [hu]
    rw [if_neg (by simp)]
    have h1 : vanishQ e K [a + (t + n * t)] = .ok () := by unfold vanishQ; rw [if_pos hQ]
    rw [h1, hFL]
    change (do let z ← vanishR K [a + (t + n * t)] ([((a + (t + n * t) : Nat) : Int)], NewCone.of K)
               vanishS K [a + (t + n * t)] z) = _
    have h2 : vanishR K [a + (t + n * t)] ([((a + (t + n * t) : Nat) : Int)], NewCone.of K) =
        .ok ([((a + (t + n * t) : Nat) : Int)], NewCone.of K) := by unfold vanishR; rw [if_pos hR]
    rw [h2]
    exact e1
  · intro i
    rw [List.mem_append, e2]
    constructor
    · rintro (hi | hi)
      · exact ⟨t, ht, .inl (List.mem_singleton.1 hi)⟩
      · exact hi
    · exact .inr

example : (1 : Nat) < [2, 3].length ∧ 2 < [2, 3].getD 1 0 := by decide

/-- The function fails for two entries on the diagonal of the only matrix. -/
theorem C84_diagonals_violated (e : Bool) (f l n : Nat) (indx : List Nat) (i j : Nat) (hi : i ∈ indx) (hj : j ∈ indx)
    (hij : i ≠ j) (hI : OnDiagonal [n] (f + l + 1) i) (hJ : OnDiagonal [n] (f + l + 1) j) :
    findMustVanish e ⟨f, l, [0], [0], [n]⟩ indx = .throws := by
  set K : Cone := ⟨f, l, [0], [0], [n]⟩ with hK
  have hb : before K = f + l := by simp [before, hK]
  have hs : anyPos K.s = true := onDiagonal_any hI
  have hst : startS K = [f + l + 1] := by
    unfold startS
    rw [if_pos hs]
    simp [startsFrom, offsetS, hK]
  have hne : uniq indx ≠ [] := fun h => by
    have := mem_uniq.2 hi
    rw [h] at this
    simp at this
  have hS : ∀ z, vanishS K (uniq indx) z = .throws := by
    intro z
    unfold vanishS
    rw [if_neg (by rw [hst]; simp)]
    simp only
    have hmem : ∀ d ∈ indx, OnDiagonal [n] (f + l + 1) d → d ∈ (uniq (indxDiag K).flatten).filter
        (fun i => ((uniq indx).filter fun i =>
          decide ((startS K).headD 0 ≤ i) && decide (i ≤ (endS K).getLastD 0)).contains i) := by
      intro d hd hD
      have hD' : OnDiagonal K.s (before K + 1) d := by rw [hb]; exact hD
      have := sorted_range hs hD'
      rw [List.mem_filter, mem_uniq, mem_diag_iff, List.contains_iff_mem, List.mem_filter]
      exact ⟨hD', mem_uniq.2 hd, by simpa using this⟩
    have m1 := hmem i hi hI
    have m2 := hmem j hj hJ
    have hge : ∀ d ∈ (uniq (indxDiag K).flatten).filter
        (fun i => ((uniq indx).filter fun i =>
          decide ((startS K).headD 0 ≤ i) && decide (i ≤ (endS K).getLastD 0)).contains i), f + l + 1 ≤ d := by
      intro d hd
      have := (mem_diag_iff K d).1 (mem_uniq.1 (List.mem_of_mem_filter hd))
      rw [hb] at this
      exact ((onDiagonal_iff_aux _ _ _).1 this).1
    generalize (uniq (indxDiag K).flatten).filter _ = D at m1 m2 hge
    have hlen : 2 ≤ D.length := by
      match D, m1, m2 with
      | [], h, _ => simp at h
      | [a], h, h' =>
        simp at h h'
        exact absurd (h.trans h'.symm) hij
      | _ :: _ :: _, _, _ => simp
    have hlast : lastLinear (startS K) D = (D.length - 1) + 1 := by
      refine lastLinear_eq (by rw [hst]; simp; omega) ?_ ?_
      · rw [hst, Nat.div_eq_of_lt (by omega), Nat.mod_eq_of_lt (by omega), List.getD_cons_zero,
          List.getD_eq_getElem?_getD, List.getElem?_eq_getElem (by omega)]
        exact hge _ (List.getElem_mem _)
      · intro t h1 h2
        rw [hst] at h2
        simp at h2
        omega
    rw [if_neg (by intro h; rw [h] at hlen; simp at hlen), if_pos]
    rw [hlast, hst]
    simp
    omega
  unfold findMustVanish
  simp only
  rw [if_neg hne]
  have hQ : vanishQ e K (uniq indx) = .ok () := by
    unfold vanishQ
    rw [if_pos (by simp [startQ, hK, anyPos])]
  have hR : ∀ z, vanishR K (uniq indx) z = .ok z := by
    intro z
    unfold vanishR
    rw [if_pos (by simp [startR, hK, anyPos])]
  rw [hQ]
  change (do let z ← vanishR K (uniq indx) _; vanishS K (uniq indx) z) = _
  rw [hR]
  exact hS _

example : OnDiagonal [3] 1 1 ∧ OnDiagonal [3] 1 9 :=
  ⟨.inl ⟨0, by omega, by omega⟩, .inl ⟨2, by omega, by omega⟩⟩

/-- With two matrices of order 2 and both diagonal entries of the first, the function returns entries of the second,
which need not be 0. -/
theorem C84_unsound_violated (e : Bool) : ∃ (z : List Int) (N : NewCone) (x : Nat → ℝ),
    findMustVanish e ⟨0, 0, [0], [0], [2, 2]⟩ [1, 4] = .ok (z, N) ∧ N.s = [2, 1] ∧
      InCone ⟨0, 0, [0], [0], [2, 2]⟩ x ∧ x 1 = 0 ∧ x 4 = 0 ∧ (5 : Int) ∈ z ∧ x 5 ≠ 0 := by
  let x : Nat → ℝ := fun k => if k = 5 ∨ k = 8 then 1 else 0
  refine ⟨[1, 4, 1, 2, 3, 5, 7], ⟨0, 0, [0], [0], [2, 1]⟩, x, ?_, rfl, ⟨?_, ?_, ?_, ?_⟩, by simp [x], by simp [x], by decide, by simp [x]⟩
  · cases e <;> decide +kernel
  · intro i h1 h2
    simp only at h1 h2
    omega
  · simp [Lorentz]
  · simp [Rotated]
  · refine ⟨?_, ?_, trivial⟩
    · have e : (Matrix.of fun i j : Fin 2 => x (before ⟨0, 0, [0], [0], [2, 2]⟩ + 1 + (i + 2 * j))) = 0 := by
        ext i j
        fin_cases i <;> fin_cases j <;> simp [x, before]
      rw [e]
      exact Matrix.PosSemidef.zero
    · have e : (Matrix.of fun i j : Fin 2 => x (before ⟨0, 0, [0], [0], [2, 2]⟩ + 1 + 2 * 2 + (i + 2 * j))) = 1 := by
        ext i j
        fin_cases i <;> fin_cases j <;> simp [x, before]
      rw [e]
      exact Matrix.PosSemidef.one

/-- The function fails whenever one of the indices lies in a Lorentz cone. -/
theorem C84_lorentz_violated (e : Bool) (K : Cone) (indx : List Nat) (i : Nat) (hi : i ∈ indx)
    (h1 : K.f + K.l < i) (h2 : i ≤ K.f + K.l + K.q.sum) : findMustVanish e K indx = .throws := by
  have ha : anyPos K.q = true := (anyPos_iff _).2 (by omega)
  have hne : uniq indx ≠ [] := fun h => by
    have := mem_uniq.2 hi
    rw [h] at this
    simp at this
  have hQ : vanishQ e K (uniq indx) = .throws := by
    have hne : K.q ≠ [] := by
      intro h
      rw [h] at ha
      simp [anyPos] at ha
    have hs : (startQ K).headD 0 = K.f + K.l + 1 := by
      unfold startQ
      rw [if_pos ha]
      cases hq : K.q with
      | nil => exact absurd hq hne
      | cons a l => simp [startsFrom]
    have he : (endQ K).getLastD 0 = K.f + K.l + K.q.sum := by
      unfold endQ startQ
      rw [if_pos ha]
      exact ends_getLast _ _ hne
    unfold vanishQ
    rw [if_neg (by unfold startQ; rw [if_pos ha]; exact startsFrom_ne ha)]
    simp only
    rw [if_neg]
    rintro ⟨h, -⟩
    rw [List.filter_eq_nil_iff] at h
    exact h i (mem_uniq.2 hi) (by rw [hs, he]; simp; omega)
  unfold findMustVanish
  simp only
  rw [if_neg hne, hQ]
  rfl

/-- With several rotated cones the sizes are wrong: the first two entries of the first of three cones take an entry off
the second. -/
theorem C84_sizes_violated (e : Bool) : findMustVanish e ⟨0, 0, [0], [3, 3, 3], [0]⟩ [1, 2] =
    .ok ([1, 2, 3], ⟨0, 0, [0], [0, 2, 3], [0]⟩) := by cases e <;> decide +kernel

/-- With several rotated cones entries that vanish are missing: the third entry of the second cone, of which one entry
is said to remain. -/
theorem C84_missing_violated (e : Bool) : findMustVanish e ⟨0, 0, [0], [3, 3, 3, 3], [0]⟩ [1, 4] =
    .ok ([1, 4, 3], ⟨0, 0, [0], [1, 1, 3, 2], [0]⟩) := by cases e <;> decide +kernel

end Verif.ConeBase
