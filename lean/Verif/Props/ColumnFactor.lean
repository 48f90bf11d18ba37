import Verif.Lemmas.ColumnSolve
import Verif.Lemmas.PosDef
import Verif.Props.BlockFactor
import Mathlib.Data.Real.Sqrt
import Mathlib.Tactic.Linarith

/-!
# C68: the column-by-column factorisation and substitutions
-/

namespace Verif.Sup

open Finset Spec

variable {R : Type} [Field R]

theorem noGap_of_pos {sizes : List Nat} (h : ∀ k, k < sizes.length → 0 < sizes.getD k 0) : NoGap sizes :=
  fun k _ _ hb hk => h k (lt_of_le_of_lt hk hb.1)

theorem fronts_of_pos {sizes : List Nat} {seps path : List (List Nat)} (P : Pattern sizes seps)
    (hp : IsPath sizes seps path) (h : ∀ k, k < sizes.length → 0 < sizes.getD k 0) :
    ∀ k, k < sizes.length → path.getD k [] ≠ [] := by
  intro k hk e
  obtain ⟨l, hl⟩ := path_head P hp hk (h k hk)
  rw [e] at hl
  cases hl

theorem sum_pos_of_pos {sizes : List Nat} (hne : sizes ≠ [])
    (h : ∀ k, k < sizes.length → 0 < sizes.getD k 0) : 0 < sizes.sum := by
  cases sizes with
  | nil => exact absurd rfl hne
  | cons s ss =>
    have := h 0 (by simp)
    simp at this ⊢
    omega

theorem toDense_eq {sz : List Nat} {sp path : List (List Nat)} (P : Pattern sz sp) (hp : IsPath sz sp path)
    (hne : sz ≠ []) {w : Workspace} (hw : workspaceInit path sz = .ok w) (S : Store R) {i j : Nat}
    (hi : i < sz.sum) (hj : j < sz.sum) :
    toDense w S i j = .ok (if j ≤ i then ent sz sp S i j else 0) := by
  by_cases h : j ≤ i
  · have := denseSym_eq P hp hne hw S hi hj
    rw [max_eq_left h, min_eq_right h] at this
    rw [if_pos h, ← this]
    unfold toDense denseSym
    rw [max_eq_left h, min_eq_right h]
    rfl
  · rw [if_neg h]
    unfold toDense Workspace.getCell
    rw [if_pos (by omega)]
    rfl

/-- **C68 (total).** If no block is empty, the factorisation reads and writes only existing entries, whatever
the stored matrix. It does not report a pivot that is not positive. -/
theorem C68_total [DecidableEq R] (sizes : List Nat) (seps path : List (List Nat)) (P : Pattern sizes seps)
    (hp : IsPath sizes seps path) (hne : sizes ≠ []) (hpos : ∀ k, k < sizes.length → 0 < sizes.getD k 0)
    (sqrt : R → R) :
    ∃ w, workspaceInit path sizes = .ok w ∧ ∀ S : Store R, ∃ S', columnCholesky sqrt w path S = .ok S' := by
  obtain ⟨w, hw, W⟩ := workspaceInit_spec P hne hp.1 hp.2
  refine ⟨w, hw, fun S => ?_⟩
  obtain ⟨S', e, _⟩ := columnCholesky_eq P hp W (fronts_of_pos P hp hpos) (noGap_of_pos hpos)
    (sum_pos_of_pos hne hpos) sqrt S
  exact ⟨S', e⟩

section Ordered

variable [LinearOrder R] [IsStrictOrderedRing R]

/-- **C68 (factorisation).** Let no block be empty, and let the stored symmetric matrix `M` be positive
definite. Then the factorisation leaves a lower triangular matrix `L` with positive diagonal and
`L Lᵀ = M`. -/
theorem C68_factor_partial (sizes : List Nat) (seps path : List (List Nat)) (P : Pattern sizes seps)
    (hp : IsPath sizes seps path) (hne : sizes ≠ []) (hpos : ∀ k, k < sizes.length → 0 < sizes.getD k 0)
    (sqrt : R → R) (hs : SqrtOK sqrt) :
    ∃ w, workspaceInit path sizes = .ok w ∧ ∀ (S : Store R) (M : Nat → Nat → R),
      (∀ i j, i < sizes.sum → j < sizes.sum → denseSym w S i j = .ok (M i j)) → PosDef sizes.sum M →
      ∃ S', columnCholesky sqrt w path S = .ok S' ∧ ∃ L : Nat → Nat → R,
        (∀ i j, i < sizes.sum → j < sizes.sum → toDense w S' i j = .ok (L i j)) ∧
        (∀ i j, i < j → L i j = 0) ∧ (∀ i, i < sizes.sum → 0 < L i i) ∧
        ∀ i j, i < sizes.sum → j < sizes.sum → ∑ k ∈ range sizes.sum, L i k * L j k = M i j := by
  obtain ⟨w, hw, W⟩ := workspaceInit_spec P hne hp.1 hp.2
  refine ⟨w, hw, fun S M hM hpd => ?_⟩
  obtain ⟨S', e, h, _⟩ := columnCholesky_eq P hp W (fronts_of_pos P hp hpos) (noGap_of_pos hpos)
    (sum_pos_of_pos hne hpos) sqrt S
  have hMe : ∀ i j, i < sizes.sum → j < sizes.sum → M i j = ent sizes seps S (max i j) (min i j) := by
    intro i j hi hj
    have := hM i j hi hj
    rw [denseSym_eq P hp hne hw S hi hj] at this
    simpa using this.symm
  have hMle : ∀ r c, c ≤ r → r < sizes.sum → ent sizes seps S r c = M r c := by
    intro r c hc hr
    rw [hMe r c hr (by omega), max_eq_left hc, min_eq_right hc]
  have main := chol_of_recurrence hs hpd
    (fun i j hi hj => by rw [hMe i j hi hj, hMe j i hj hi, max_comm, min_comm])
    (A := ent sizes seps S')
    (fun r c hc hr => by
      rw [h r c (by omega) hc hr, hMle r c hc hr, hMle c c le_rfl (by omega)])
  refine ⟨S', e, fun i j => if j ≤ i then ent sizes seps S' i j else 0, ?_, ?_, ?_, ?_⟩
  · exact fun i j hi hj => toDense_eq P hp hne hw S' hi hj
  · exact fun i j hij => if_neg (by omega)
  · intro i hi
    simp only
    rw [if_pos le_rfl]
    exact (main i hi).1
  · have lower : ∀ i j, j ≤ i → i < sizes.sum → ∑ k ∈ range sizes.sum,
        (if k ≤ i then ent sizes seps S' i k else 0) * (if k ≤ j then ent sizes seps S' j k else 0) = M i j := by
      intro i j hji hi
      rw [← (main j (by omega)).2 i hji hi]
      symm
      rw [← sum_subset (s₁ := range (j + 1)) (s₂ := range sizes.sum)
        (fun a ha => mem_range.2 (by have := mem_range.1 ha; omega))]
      · refine sum_congr rfl fun k hk => ?_
        have := mem_range.1 hk
        rw [if_pos (by omega), if_pos (by omega)]
      · intro k _ hk
        have : ¬ k < j + 1 := fun h => hk (mem_range.2 h)
        rw [if_neg (show ¬ k ≤ j by omega), mul_zero]
    intro i j hi hj
    rcases Nat.le_total j i with h' | h'
    · exact lower i j h' hi
    · rw [hMe i j hi hj, max_comm, min_comm, ← hMe j i hj hi, ← lower j i h' hj]
      exact sum_congr rfl fun k _ => mul_comm _ _

end Ordered

/-- **C68 (`ApplyInverse`).** If no block is empty and the diagonal has no zero, the result solves
`L y = b`. -/
theorem C68_forward_partial (sizes : List Nat) (seps path : List (List Nat)) (P : Pattern sizes seps)
    (hp : IsPath sizes seps path) (hne : sizes ≠ []) (hpos : ∀ k, k < sizes.length → 0 < sizes.getD k 0) :
    ∃ w, workspaceInit path sizes = .ok w ∧ ∀ (S : Store R) (L : Nat → Nat → R),
      (∀ i j, i < sizes.sum → j < sizes.sum → toDense w S i j = .ok (L i j)) →
      (∀ i, i < sizes.sum → L i i ≠ 0) → ∀ b : Nat → R, ∃ y, columnForward w S b = .ok y ∧
        ∀ i, i < sizes.sum → ∑ j ∈ range sizes.sum, L i j * y j = b i := by
  obtain ⟨w, hw, W⟩ := workspaceInit_spec P hne hp.1 hp.2
  refine ⟨w, hw, fun S L hL hd b => ?_⟩
  have hLe : ∀ i j, i < sizes.sum → j < sizes.sum → L i j = if j ≤ i then ent sizes seps S i j else 0 := by
    intro i j hi hj
    have := hL i j hi hj
    rw [toDense_eq P hp hne hw S hi hj] at this
    simpa using this.symm
  obtain ⟨y, e, h⟩ := columnForward_eq P W (noGap_of_pos hpos) (sum_pos_of_pos hne hpos) S b (fun i hi => by
    have := hd i hi
    rwa [hLe i i hi hi, if_pos le_rfl] at this)
  refine ⟨y, e, fun i hi => ?_⟩
  rw [← h i hi]
  symm
  rw [← sum_subset (s₁ := range (i + 1)) (s₂ := range sizes.sum)
    (fun a ha => mem_range.2 (by have := mem_range.1 ha; omega))]
  · refine sum_congr rfl fun j hj => ?_
    have := mem_range.1 hj
    rw [hLe i j hi (by omega), if_pos (by omega)]
  · intro j hj hj'
    have : ¬ j < i + 1 := fun h => hj' (mem_range.2 h)
    rw [hLe i j hi (mem_range.1 hj), if_neg (by omega), zero_mul]

/-- **C68 (`ApplyInverseOfTranspose`).** If no front is empty and the diagonal has no zero, the result solves
`Lᵀ y = b`. Empty blocks do no harm here. -/
theorem C68_backward (sizes : List Nat) (seps path : List (List Nat)) (P : Pattern sizes seps)
    (hp : IsPath sizes seps path) (hne : sizes ≠ []) (hf : ∀ k, k < sizes.length → path.getD k [] ≠ [])
    (hN : 0 < sizes.sum) :
    ∃ w, workspaceInit path sizes = .ok w ∧ ∀ (S : Store R) (L : Nat → Nat → R),
      (∀ i j, i < sizes.sum → j < sizes.sum → toDense w S i j = .ok (L i j)) →
      (∀ i, i < sizes.sum → L i i ≠ 0) → ∀ b : Nat → R, ∃ y, columnBackward w path S b = .ok y ∧
        ∀ j, j < sizes.sum → ∑ i ∈ range sizes.sum, L i j * y i = b j := by
  obtain ⟨w, hw, W⟩ := workspaceInit_spec P hne hp.1 hp.2
  refine ⟨w, hw, fun S L hL hd b => ?_⟩
  have hLe : ∀ i j, i < sizes.sum → j < sizes.sum → L i j = if j ≤ i then ent sizes seps S i j else 0 := by
    intro i j hi hj
    have := hL i j hi hj
    rw [toDense_eq P hp hne hw S hi hj] at this
    simpa using this.symm
  obtain ⟨y, e, h⟩ := columnBackward_eq P hp W hf hN S b (fun i hi => by
    have := hd i hi
    rwa [hLe i i hi hi, if_pos le_rfl] at this)
  refine ⟨y, e, fun j hj => ?_⟩
  rw [← h j hj]
  symm
  rw [← sum_subset (s₁ := Ico j sizes.sum) (s₂ := range sizes.sum)
    (fun a ha => mem_range.2 (mem_Ico.1 ha).2)]
  · refine sum_congr rfl fun i hi => ?_
    have := mem_Ico.1 hi
    rw [hLe i j (by omega) hj, if_pos (by omega)]
  · intro i hi hi'
    have h1 := mem_range.1 hi
    have : ¬ j ≤ i := fun h => hi' (mem_Ico.2 ⟨h, h1⟩)
    rw [hLe i j h1 hj, if_neg this, zero_mul]

/-- **C68 (empty blocks).** If some block before a column is empty, neither the factorisation nor
`ApplyInverse` finishes, for any stored matrix: both read the diagonal of the empty block. -/
theorem C68_empty_block_violated [DecidableEq R] (sizes : List Nat) (seps path : List (List Nat))
    (P : Pattern sizes seps) (hp : IsPath sizes seps path) (hne : sizes ≠ []) (k k' : Nat)
    (hk : k < k') (hk' : k' < sizes.length) (h0 : sizes.getD k 0 = 0) (h1 : 0 < sizes.getD k' 0)
    (sqrt : R → R) :
    ∃ w, workspaceInit path sizes = .ok w ∧ ∀ S : Store R,
      (∀ S', columnCholesky sqrt w path S ≠ .ok S') ∧ ∀ b, columnForward w S b = .ub := by
  obtain ⟨w, hw, W⟩ := workspaceInit_spec P hne hp.1 hp.2
  have hg : ¬ NoGap sizes := fun h => by
    have := h k k' (start sizes k') (inBlock_add (r := 0) hk' h1) (by omega)
    omega
  exact ⟨w, hw, fun S => ⟨fun S' => colChol_gap W sqrt S hg S', fun b => colForward_gap P W S b hg⟩⟩

/-! ### Concrete cases -/

/-- The positive definite matrix with the rows `4 2 0 2`, `2 5 2 3`, `0 2 2 1`, `2 3 1 3` on the pattern
`exSizes2`. -/
def exStore3 : Store Rat := fun a =>
  match a with
  | .diag 0 _ _ => 4
  | .off 0 _ _ => 2
  | .diag 1 r c => if r = c then (if r = 0 then 5 else 2) else 2
  | .off 1 r _ => if r = 0 then 3 else 1
  | .diag 2 _ _ => 3
  | _ => 0

/-- The factor, column by column, and the two substitutions with the factor. -/
example : ((workspaceInit exPath2 exSizes2).bind fun w =>
    (columnCholesky (fun d => (Rat.sqrt d : Rat)) w exPath2 exStore3).bind fun S =>
    (columnForward w S (fun i => (i : Rat) + 1)).bind fun y =>
    (columnBackward w exPath2 S y).bind fun x =>
      .ok ([S (.diag 0 0 0), S (.off 0 0 0), S (.off 0 0 1), S (.diag 1 0 0), S (.diag 1 1 0), S (.diag 1 1 1),
        S (.off 1 0 0), S (.off 1 1 0)], (List.range 4).map x)) =
    .ok ([2, 1, 1, 2, 1, 1, 1, 0], [-1 / 16, -17 / 8, 9 / 4, 11 / 4]) := by
  decide +kernel

def exM3 (i j : Nat) : Rat :=
  (([[4, 2, 0, 2], [2, 5, 2, 3], [0, 2, 2, 1], [2, 3, 1, 3]] : List (List Rat)).getD i []).getD j 0

/-- The hypotheses of `C68_factor_partial` hold for this matrix over the reals. -/
example : (∀ k, k < exSizes2.length → 0 < exSizes2.getD k 0) ∧ SqrtOK Real.sqrt ∧
    PosDef exSizes2.sum (fun i j => (exM3 i j : ℝ)) ∧
    ∃ w, workspaceInit exPath2 exSizes2 = .ok w ∧ ∀ i j, i < exSizes2.sum → j < exSizes2.sum →
      denseSym w (fun a => (exStore3 a : ℝ)) i j = .ok (exM3 i j : ℝ) := by
  refine ⟨by decide, fun d hd => ⟨Real.sqrt_pos.2 hd, Real.mul_self_sqrt hd.le⟩, ?_, _, rfl, ?_⟩
  · rintro x ⟨i, hi, hx⟩
    have e : ∑ i ∈ range exSizes2.sum, ∑ j ∈ range exSizes2.sum, x i * (exM3 i j : ℝ) * x j =
        (2 * x 0 + x 1 + x 3) ^ 2 + (2 * x 1 + x 2 + x 3) ^ 2 + x 2 ^ 2 + x 3 ^ 2 := by
      simp [exSizes2, sum_range_succ, exM3]
      ring
    rw [e]
    by_contra hc
    have h3 : x 3 = 0 := by nlinarith [sq_nonneg (2 * x 0 + x 1 + x 3), sq_nonneg (2 * x 1 + x 2 + x 3), sq_nonneg (x 2), sq_nonneg (x 3)]
    have h2 : x 2 = 0 := by nlinarith [sq_nonneg (2 * x 0 + x 1 + x 3), sq_nonneg (2 * x 1 + x 2 + x 3), sq_nonneg (x 2), sq_nonneg (x 3)]
    have h1 : x 1 = 0 := by
      rw [h2, h3] at hc
      nlinarith [sq_nonneg (2 * x 0 + x 1), sq_nonneg (x 1)]
    have h0 : x 0 = 0 := by
      rw [h1, h2, h3] at hc
      nlinarith [sq_nonneg (x 0)]
    have : i = 0 ∨ i = 1 ∨ i = 2 ∨ i = 3 := by simp [exSizes2] at hi; omega
    rcases this with rfl | rfl | rfl | rfl
    · exact hx h0
    · exact hx h1
    · exact hx h2
    · exact hx h3
  · intro i j hi hj
    have hi' : i = 0 ∨ i = 1 ∨ i = 2 ∨ i = 3 := by simp [exSizes2] at hi; omega
    have hj' : j = 0 ∨ j = 1 ∨ j = 2 ∨ j = 3 := by simp [exSizes2] at hj; omega
    rcases hi' with rfl | rfl | rfl | rfl <;> rcases hj' with rfl | rfl | rfl | rfl <;>
      first | rfl | (simp only [denseSym]; simp [exM3]; rfl)

/-- The pattern of `C68_empty_block_violated` is one that the symbolic analysis produces: the cliques are a
cycle of length four and an isolated pair. -/
example : ((getData [[0, 3], [0, 1], [1, 2], [2, 3], [7, 9]] none 2).toOption.map
      fun d => (d.cliques, d.supernodeSize)) = some (exPath, exSizes) ∧
    Pattern exSizes exSeps ∧ IsPath exSizes exSeps exPath ∧ exSizes ≠ [] ∧
    1 < 2 ∧ 2 < exSizes.length ∧ exSizes.getD 1 0 = 0 ∧ 0 < exSizes.getD 2 0 ∧
    (∀ k, k < exSizes.length → exPath.getD k [] ≠ []) ∧ 0 < exSizes.sum :=
  ⟨by decide +kernel, exPattern.1, exPattern.2.1, exPattern.2.2, by decide, by decide, by decide, by decide,
    by decide, by decide⟩

end Verif.Sup
