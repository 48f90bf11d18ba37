import Verif.Lemmas.MatlabCone
import Verif.Lemmas.MatlabLoop
import Mathlib.Algebra.BigOperators.Group.List.Basic
import Mathlib.Algebra.BigOperators.Ring.Finset
import Mathlib.Algebra.Field.Basic
import Mathlib.Tactic.Ring
import Mathlib.Tactic.LinearCombination

/-!
# The reduced program
-/

namespace Verif.Matlab

open Spec
open scoped BigOperators

/-! ### Sums over an index -/

theorem sum_getD (l : List Nat) (f : Nat → ℝ) :
    ∑ j ∈ Finset.range l.length, f (l.getD j 0) = (l.map f).sum := by
  induction l with
  | nil => simp
  | cons a l ih =>
    rw [List.length_cons, Finset.sum_range_succ', List.map_cons, List.sum_cons, ← ih, add_comm]
    simp

theorem sum_index {N : Nat} {l : List Nat} {f : Nat → ℝ} (hn : l.Nodup) (hl : ∀ k ∈ l, k < N)
    (hf : ∀ k, k < N → k ∉ l → f k = 0) :
    ∑ k ∈ Finset.range N, f k = ∑ j ∈ Finset.range l.length, f (l.getD j 0) := by
  rw [sum_getD, ← List.sum_toFinset f hn]
  symm
  refine Finset.sum_subset (fun k hk => ?_) fun k hk hkl => ?_
  · exact Finset.mem_range.2 (hl k (List.mem_toFinset.1 hk))
  · exact hf k (Finset.mem_range.1 hk) fun h => hkl (List.mem_toFinset.2 h)

theorem sum_range_list (n : Nat) (f : Nat → ℝ) :
    ((List.range n).map f).sum = ∑ j ∈ Finset.range n, f j := by
  induction n with
  | zero => simp
  | succ n ih => rw [List.range_succ, List.map_append, List.sum_append, ih, Finset.sum_range_succ]; simp

/-- The values of `RecoverPrimal` and `RecoverDual`. -/
theorem recover_get {l : List Nat} (hn : l.Nodup) (x : Nat → ℝ) {t : Nat} (ht : t < l.length) :
    recoverPrimal l x (l.getD t 0) = x t := by
  unfold recoverPrimal
  rw [sum_range_list, Finset.sum_eq_single t]
  · simp
  · intro j hj hne
    have hj := Finset.mem_range.1 hj
    rw [if_neg]
    intro he
    rw [List.getD_eq_getElem?_getD, List.getD_eq_getElem?_getD, List.getElem?_eq_getElem hj,
      List.getElem?_eq_getElem ht, Option.getD_some, Option.getD_some] at he
    exact hne (hn.getElem_inj_iff.1 he)
  · intro h
    exact absurd (Finset.mem_range.2 ht) h

theorem getD_mem {l : List Nat} {t : Nat} (ht : t < l.length) : l.getD t 0 ∈ l := by
  rw [List.getD_eq_getElem?_getD, List.getElem?_eq_getElem ht, Option.getD_some]
  exact List.getElem_mem ht

theorem recover_zero {l : List Nat} (x : Nat → ℝ) {k : Nat} (hk : k ∉ l) :
    recoverPrimal l x k = 0 := by
  unfold recoverPrimal
  rw [sum_range_list, Finset.sum_eq_zero]
  intro j hj
  rw [if_neg]
  intro he
  exact hk (he ▸ getD_mem (Finset.mem_range.1 hj))

theorem recoverDual_eq (l : List Nat) (x : Nat → ℝ) : recoverDual l x = recoverPrimal l x := rfl

/-! ### The kept rows -/

theorem mem_eqKeep {m N : Nat} {A : Nat → Nat → ℝ} {b : Nat → ℝ} {i : Nat} :
    i ∈ eqKeep m N A b ↔ i < m ∧ ((∃ j, j < N ∧ A i j ≠ 0) ∨ b i ≠ 0) := by
  simp only [eqKeep, List.mem_filter, List.mem_range, Bool.or_eq_true, List.any_eq_true,
    decide_eq_true_eq]

theorem eqKeep_nodup (m N : Nat) (A : Nat → Nat → ℝ) (b : Nat → ℝ) : (eqKeep m N A b).Nodup :=
  List.nodup_range.filter _

/-! ### The mirror image of an index -/

/-- The position of the transposed entry. -/
def mirror : List Nat → Nat → Nat → Nat
  | [], _, k => k
  | n :: ns, off, k =>
    if k < off + n * n then pos off n ((k - off) / n) ((k - off) % n) else mirror ns (off + n * n) k

theorem mirror_range : ∀ (s : List Nat) (off k : Nat), off ≤ k → k < off + numVar s →
    off ≤ mirror s off k ∧ mirror s off k < off + numVar s ∧ mirror s off (mirror s off k) = k := by
  intro s
  induction s with
  | nil => intro off k h1 h2; simp only [numVar] at h2; omega
  | cons n ns ih =>
    intro off k h1 h2
    simp only [numVar] at h2 ⊢
    by_cases hk : k < off + n * n
    · obtain ⟨e1, e2, e3⟩ := pos_of h1 hk
      have hb := pos_bounds (off := off) e2 e1
      simp only [mirror, if_pos hk, if_pos hb.2]
      refine ⟨hb.1, by omega, ?_⟩
      rw [pos_mod e2, pos_div e2]
      exact e3
    · obtain ⟨i1, i2, i3⟩ := ih (off + n * n) k (by omega) (by omega)
      simp only [mirror, if_neg hk]
      exact ⟨by omega, by omega, by rw [if_neg (by omega)]; exact i3⟩

theorem symRow_iff : ∀ (s : List Nat) (off : Nat) (x : Nat → ℝ),
    SymRow s off x ↔ ∀ k, off ≤ k → k < off + numVar s → x (mirror s off k) = x k := by
  intro s
  induction s with
  | nil => intro off x; simp only [SymRow, numVar, true_iff]; intros; omega
  | cons n ns ih =>
    intro off x
    simp only [SymRow, ih, numVar]
    constructor
    · rintro ⟨h1, h2⟩ k k1 k2
      by_cases hk : k < off + n * n
      · obtain ⟨e1, e2, e3⟩ := pos_of k1 hk
        simp only [mirror, if_pos hk]
        rw [h1 _ _ e2 e1, e3]
      · simp only [mirror, if_neg hk]
        exact h2 k (by omega) (by omega)
    · intro h
      refine ⟨fun i j hi hj => ?_, fun k k1 k2 => ?_⟩
      · have hb := pos_bounds (off := off) hi hj
        have := h _ hb.1 (by omega)
        simp only [mirror, if_pos hb.2, pos_mod hi, pos_div hi] at this
        exact this.symm
      · have := h k (by omega) (by omega)
        simpa only [mirror, if_neg (show ¬ k < off + n * n by omega)] using this

theorem cone_symRow : ∀ {s : List Nat} {off : Nat} {x : Nat → ℝ}, Cone s off x → SymRow s off x := by
  intro s
  induction s with
  | nil => exact fun _ => trivial
  | cons n ns ih =>
    rintro off x ⟨h1, h2⟩
    refine ⟨fun i j hi hj => ?_, ih h2⟩
    have := h1.1.apply ⟨i, hi⟩ ⟨j, hj⟩
    simpa [pos] using this.symm

theorem dualCone_iff_of_sym : ∀ {s : List Nat} {off : Nat} {x : Nat → ℝ}, SymRow s off x →
    (DualCone s off x ↔ Cone s off x) := by
  intro s
  induction s with
  | nil => exact fun _ => Iff.rfl
  | cons n ns ih =>
    rintro off x ⟨h1, h2⟩
    simp only [DualCone, Cone, ih h2]
    have : (Matrix.of fun i j : Fin n => (x (off + (i + n * j)) + x (off + (j + n * i))) / 2) =
        Matrix.of fun i j : Fin n => x (off + (i + n * j)) := by
      ext i j
      have := h1 i j i.2 j.2
      unfold pos at this
      simp only [Matrix.of_apply]
      rw [← this]
      ring
    rw [this]

/-- The symmetric part of a vector. -/
noncomputable def symPart (s : List Nat) (x : Nat → ℝ) : Nat → ℝ := fun k => (x k + x (mirror s 0 k)) / 2

theorem dualCone_congr_sym : ∀ {s : List Nat} {off : Nat} {x x' : Nat → ℝ},
    (∀ k, off ≤ k → k < off + numVar s → x' k = (x k + x (mirror s off k)) / 2) →
    (DualCone s off x ↔ Cone s off x') := by
  intro s
  induction s with
  | nil => exact fun _ => Iff.rfl
  | cons n ns ih =>
    intro off x x' h
    simp only [numVar] at h
    simp only [DualCone, Cone]
    refine and_congr ?_ (ih fun k k1 k2 => ?_)
    · have : (Matrix.of fun i j : Fin n => (x (off + (i + n * j)) + x (off + (j + n * i))) / 2) =
          Matrix.of fun i j : Fin n => x' (off + (i + n * j)) := by
        ext i j
        have hb := pos_bounds (off := off) i.2 j.2
        have := h (pos off n i j) hb.1 (by omega)
        simp only [mirror, if_pos hb.2, pos_mod i.2, pos_div i.2] at this
        exact this.symm
      rw [this]
    · have := h k (by omega) (by omega)
      simpa only [mirror, if_neg (show ¬ k < off + n * n by omega)] using this

/-! ### The reduced rows are symmetric -/

theorem symRow_append : ∀ (l r : List Nat) (off : Nat) (x : Nat → ℝ),
    SymRow (l ++ r) off x ↔ SymRow l off x ∧ SymRow r (off + numVar l) x := by
  intro l
  induction l with
  | nil => intro r off x; simp [SymRow, numVar]
  | cons n l ih =>
    intro r off x
    simp only [List.cons_append, SymRow, ih, numVar, and_assoc, Nat.add_assoc]

theorem symRow_cliques {off n : Nat} {x : Nat → ℝ}
    (hs : ∀ i j, i < n → j < n → x (pos off n i j) = x (pos off n j i)) :
    ∀ {cl : List (List Nat)} {off' : Nat} {x' : Nat → ℝ},
    (∀ c ∈ cl, ∀ i ∈ c, i < n) → (∀ c ∈ cl, c.Nodup) →
    (∀ t, t < (cl.flatMap (subMatIndex off n)).length →
      x' (off' + t) = x ((cl.flatMap (subMatIndex off n)).getD t 0)) →
    SymRow (cl.map List.length) off' x' := by
  intro cl
  induction cl with
  | nil => intro off' x' _ _ _; trivial
  | cons c cl ih =>
    intro off' x' hlt hnd h
    have hl := sorted_length (hlt c (by simp)) (hnd c (by simp))
    have hlen : (subMatIndex off n c).length = c.length * c.length := by
      rw [subMatIndex_length, hl]
    simp only [List.flatMap_cons, List.length_append, hlen] at h ⊢
    refine ⟨fun i j hi hj => ?_, @ih (off' + c.length * c.length) x' (fun c hc => hlt c (by simp [hc]))
      (fun c hc => hnd c (by simp [hc])) (fun t ht => by
        have := h (c.length * c.length + t) (by omega)
        rw [Nat.add_assoc, this, List.getD_eq_getElem?_getD,
          List.getElem?_append_right (by rw [hlen]; omega), hlen, Nat.add_sub_cancel_left,
          List.getD_eq_getElem?_getD])⟩
    have key : ∀ i j, i < c.length → j < c.length → x' (pos off' c.length i j) =
        x (pos off n ((sorted n c).getD i 0) ((sorted n c).getD j 0)) := by
      intro i j hi hj
      have hb := pos_bounds (off := 0) hi hj
      unfold pos at hb
      unfold pos
      rw [h _ (by omega), List.getD_eq_getElem?_getD, List.getElem?_append_left (by rw [hlen]; omega)]
      have := subMatIndex_get (off := off) (n := n) (c := c) (a := i) (b := j) (by rw [hl]; exact hi)
        (by rw [hl]; exact hj)
      rw [hl] at this
      rw [this]
      rfl
    have hm : ∀ i, i < c.length → (sorted n c).getD i 0 < n := fun i hi =>
      hlt c (by simp) _ ((mem_sorted (hlt c (by simp)) _).1 (getD_mem (by rw [hl]; exact hi)))
    rw [key i j hi hj, key j i hj hi]
    exact hs _ _ (hm i hi) (hm j hj)

theorem symRow_reduced : ∀ {s : List Nat} {off : Nat} {M : Nat → Bool} {cls : List (List (List Nat))}
    {off' : Nat} {x x' : Nat → ℝ}, Masked s off M cls → SymRow s off x →
    (∀ t, t < (maskIndex s off cls).length → x' (off' + t) = x ((maskIndex s off cls).getD t 0)) →
    SymRow (maskSizes cls) off' x' := by
  intro s
  induction s with
  | nil =>
    intro off M cls off' x x' h _ _
    cases cls with
    | nil => trivial
    | cons _ _ => exact h.elim
  | cons n ns ih =>
    intro off M cls off' x x' h hsym hx
    cases cls with
    | nil => exact h.elim
    | cons cl cls =>
      obtain ⟨⟨h1, h2⟩, h3⟩ := h
      simp only [maskIndex, List.length_append] at hx
      have hnd := (List.nodup_flatten.1 h1.nodup).1
      have hx1 : ∀ t, t < (cl.flatMap (subMatIndex off n)).length →
          x' (off' + t) = x ((cl.flatMap (subMatIndex off n)).getD t 0) := fun t ht => by
        rw [hx t (by omega), List.getD_eq_getElem?_getD, List.getElem?_append_left ht,
          List.getD_eq_getElem?_getD]
      have c2 := (@cone_cliques off n x cl off' x' h1.lt hnd hx1).2
      have hs : maskSizes (cl :: cls) = cl.map List.length ++ maskSizes cls := by
        simp [maskSizes]
      rw [hs, symRow_append, c2]
      exact ⟨symRow_cliques hsym.1 h1.lt hnd hx1,
        ih h3 hsym.2 fun t ht => by
          rw [Nat.add_assoc, hx _ (by omega), List.getD_eq_getElem?_getD,
            List.getElem?_append_right (by omega), Nat.add_sub_cancel_left,
            List.getD_eq_getElem?_getD]⟩

end Verif.Matlab
