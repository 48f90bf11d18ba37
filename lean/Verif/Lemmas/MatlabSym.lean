import Verif.Lemmas.MatlabReduce
import Mathlib.Algebra.BigOperators.Group.Finset.Basic

/-!
# Symmetrisation
-/

namespace Verif.Matlab

open Spec
open scoped BigOperators

theorem assign_get {R : Type} {k : Nat} {v : R} : ∀ (l : List (Nat × R)) (x : Nat → R),
    (∀ p ∈ l, p.1 = k → p.2 = v) → (∃ p ∈ l, p.1 = k) ∨ x k = v → assign x l k = v := by
  intro l
  induction l with
  | nil => intro x _ h; rcases h with ⟨p, hp, -⟩ | h
           · simp at hp
           · exact h
  | cons q l ih =>
    intro x hv h
    obtain ⟨i, w⟩ := q
    simp only [assign]
    refine ih _ (fun p hp => hv p (by simp [hp])) ?_
    by_cases hi : k = i
    · right
      rw [if_pos hi]
      exact hv (i, w) (by simp) hi.symm
    · rcases h with ⟨p, hp, hpk⟩ | h
      · rcases List.mem_cons.1 hp with rfl | hp
        · exact absurd hpk.symm hi
        · exact .inl ⟨p, hp, hpk⟩
      · right
        rw [if_neg hi]
        exact h

theorem assign_other {R : Type} {k : Nat} : ∀ (l : List (Nat × R)) (x : Nat → R),
    (∀ p ∈ l, p.1 ≠ k) → assign x l k = x k := by
  intro l
  induction l with
  | nil => intro x _; rfl
  | cons q l ih =>
    intro x h
    obtain ⟨i, w⟩ := q
    simp only [assign]
    rw [ih _ fun p hp => h p (by simp [hp])]
    rw [if_neg]
    exact fun hk => h (i, w) (by simp) hk.symm

theorem lowerUpper_mem : ∀ (s : List Nat) (off : Nat) (p : Nat × Nat), p ∈ lowerUpper off s →
    off ≤ p.1 ∧ p.1 < off + numVar s ∧ off ≤ p.2 ∧ p.2 < off + numVar s ∧
      p.2 = mirror s off p.1 ∧ p.1 = mirror s off p.2 := by
  intro s
  induction s with
  | nil => intro off p h; simp [lowerUpper] at h
  | cons n ns ih =>
    intro off p h
    simp only [lowerUpper, List.mem_append, List.mem_flatMap, List.mem_range, List.mem_map,
      List.mem_filter, decide_eq_true_eq] at h
    simp only [numVar, mirror]
    rcases h with ⟨j, hj, i, ⟨hi, -⟩, rfl⟩ | h
    · have b1 := pos_bounds (off := off) hi hj
      have b2 := pos_bounds (off := off) hj hi
      simp only [if_pos b1.2, if_pos b2.2, pos_mod hi, pos_div hi, pos_mod hj, pos_div hj]
      exact ⟨b1.1, by omega, b2.1, by omega, trivial, trivial⟩
    · obtain ⟨h1, h2, h3, h4, h5, h6⟩ := ih _ p h
      rw [if_neg (by omega), if_neg (by omega)]
      exact ⟨by omega, by omega, by omega, by omega, h5, h6⟩

theorem lowerUpper_cover : ∀ (s : List Nat) (off k : Nat), off ≤ k → k < off + numVar s →
    (k, mirror s off k) ∈ lowerUpper off s ∨ (mirror s off k, k) ∈ lowerUpper off s := by
  intro s
  induction s with
  | nil => intro off k h1 h2; simp only [numVar] at h2; omega
  | cons n ns ih =>
    intro off k h1 h2
    simp only [numVar] at h2
    simp only [lowerUpper, List.mem_append, List.mem_flatMap, List.mem_range, List.mem_map,
      List.mem_filter, decide_eq_true_eq, mirror]
    by_cases hk : k < off + n * n
    · obtain ⟨e1, e2, e3⟩ := pos_of h1 hk
      simp only [if_pos hk]
      by_cases hle : (k - off) / n ≤ (k - off) % n
      · exact .inl (.inl ⟨_, e2, _, ⟨e1, hle⟩, by rw [e3]⟩)
      · exact .inr (.inl ⟨_, e1, _, ⟨e2, by omega⟩, by rw [e3]⟩)
    · simp only [if_neg hk]
      rcases ih (off + n * n) k (by omega) (by omega) with h | h
      · exact .inl (.inr h)
      · exact .inr (.inr h)

theorem mem_lu {f : Nat} {s : List Nat} {p : Nat × Nat}
    (hp : p ∈ (List.range f).map (fun k => (k, k)) ++ lowerUpper f s) :
    (p.1 < f ∧ p.2 = p.1) ∨ (f ≤ p.1 ∧ p.1 < f + numVar s ∧ f ≤ p.2 ∧ p.2 < f + numVar s ∧
      p.2 = mirror s f p.1 ∧ p.1 = mirror s f p.2) := by
  rcases List.mem_append.1 hp with hp | hp
  · obtain ⟨k, hk, rfl⟩ := List.mem_map.1 hp
    exact .inl ⟨List.mem_range.1 hk, rfl⟩
  · exact .inr (lowerUpper_mem s f p hp)

theorem symmetrizeFrom_get (f : Nat) (s : List Nat) (x : Nat → ℝ) {k : Nat} (hf : f ≤ k)
    (hk : k < f + numVar s) : symmetrizeFrom f s x k = (x k + x (mirror s f k)) / 2 := by
  unfold symmetrizeFrom
  rw [List.zip_map', List.zip_map']
  have hc := lowerUpper_cover s f k hf hk
  apply assign_get
  · intro q hq hqk
    obtain ⟨p, hp, rfl⟩ := List.mem_map.1 hq
    simp only at hqk ⊢
    rcases mem_lu hp with h | ⟨-, -, -, -, h5, h6⟩
    · omega
    · rw [h6, hqk, add_comm]
  · rcases hc with h | h
    · right
      apply assign_get
      · intro q hq hqk
        obtain ⟨p, hp, rfl⟩ := List.mem_map.1 hq
        simp only at hqk ⊢
        rcases mem_lu hp with h | ⟨-, -, -, -, h5, h6⟩
        · omega
        · rw [h5, hqk]
      · exact .inl ⟨_, List.mem_map.2 ⟨_, List.mem_append_right _ h, rfl⟩, rfl⟩
    · exact .inl ⟨_, List.mem_map.2 ⟨_, List.mem_append_right _ h, rfl⟩, rfl⟩

theorem symmetrizeFrom_free (f : Nat) (s : List Nat) (x : Nat → ℝ) {k : Nat} (hk : k < f) :
    symmetrizeFrom f s x k = x k := by
  unfold symmetrizeFrom
  rw [List.zip_map', List.zip_map']
  have key : ∀ p ∈ (List.range f).map (fun k => (k, k)) ++ lowerUpper f s, p.1 = k ∨ p.2 = k →
      (x p.1 + x p.2) / 2 = x k := by
    intro p hp h
    rcases mem_lu hp with ⟨-, h2⟩ | h'
    · have : p.1 = k := by omega
      rw [h2, this]
      ring
    · omega
  apply assign_get
  · intro q hq hqk
    obtain ⟨p, hp, rfl⟩ := List.mem_map.1 hq
    exact key p hp (.inr hqk)
  · right
    apply assign_get
    · intro q hq hqk
      obtain ⟨p, hp, rfl⟩ := List.mem_map.1 hq
      exact key p hp (.inl hqk)
    · exact .inr rfl

theorem symmetrize_get (s : List Nat) (x : Nat → ℝ) {k : Nat} (hk : k < numVar s) :
    symmetrize s x k = (x k + x (mirror s 0 k)) / 2 :=
  symmetrizeFrom_get 0 s x (Nat.zero_le _) (by omega)

theorem symmetrize_symRow (s : List Nat) (x : Nat → ℝ) : SymRow s 0 (symmetrize s x) := by
  rw [symRow_iff]
  intro k k1 k2
  obtain ⟨-, m2, m3⟩ := mirror_range s 0 k k1 k2
  rw [symmetrize_get s x (by omega), symmetrize_get s x (by omega), m3, add_comm]

theorem sum_mirror (s : List Nat) (off : Nat) (f : Nat → ℝ) :
    ∑ k ∈ Finset.Ico off (off + numVar s), f (mirror s off k) =
      ∑ k ∈ Finset.Ico off (off + numVar s), f k := by
  have hm : ∀ k ∈ Finset.Ico off (off + numVar s), mirror s off k ∈ Finset.Ico off (off + numVar s) ∧
      mirror s off (mirror s off k) = k := by
    intro k hk
    have hk := Finset.mem_Ico.1 hk
    have := mirror_range s off k hk.1 hk.2
    exact ⟨Finset.mem_Ico.2 ⟨this.1, this.2.1⟩, this.2.2⟩
  exact Finset.sum_nbij' (mirror s off) (mirror s off) (fun k hk => (hm k hk).1) (fun k hk => (hm k hk).1)
    (fun k hk => (hm k hk).2) (fun k hk => (hm k hk).2) fun _ _ => rfl

/-- Symmetrisation changes no inner product with a symmetric vector. -/
theorem symmetrizeFrom_inner (f : Nat) (s : List Nat) (a x : Nat → ℝ) (hx : SymRow s f x) :
    ∑ k ∈ Finset.range (f + numVar s), symmetrizeFrom f s a k * x k =
      ∑ k ∈ Finset.range (f + numVar s), a k * x k := by
  rw [← Finset.sum_range_add_sum_Ico _ (Nat.le_add_right f (numVar s)),
    ← Finset.sum_range_add_sum_Ico _ (Nat.le_add_right f (numVar s))]
  congr 1
  · refine Finset.sum_congr rfl fun k hk => ?_
    rw [symmetrizeFrom_free f s a (Finset.mem_range.1 hk)]
  · have h1 : ∑ k ∈ Finset.Ico f (f + numVar s), symmetrizeFrom f s a k * x k =
        ∑ k ∈ Finset.Ico f (f + numVar s), (a k * x k / 2 + a (mirror s f k) * x (mirror s f k) / 2) := by
      refine Finset.sum_congr rfl fun k hk => ?_
      have hk := Finset.mem_Ico.1 hk
      rw [symmetrizeFrom_get f s a hk.1 hk.2, (symRow_iff s f x).1 hx k hk.1 hk.2]
      ring
    rw [h1, Finset.sum_add_distrib, sum_mirror s f fun k => a k * x k / 2, ← Finset.sum_add_distrib]
    exact Finset.sum_congr rfl fun k _ => by ring

theorem symmetrize_inner (s : List Nat) (a x : Nat → ℝ) (hx : SymRow s 0 x) :
    ∑ k ∈ Finset.range (numVar s), symmetrize s a k * x k =
      ∑ k ∈ Finset.range (numVar s), a k * x k := by
  have := symmetrizeFrom_inner 0 s a x hx
  rwa [Nat.zero_add] at this

end Verif.Matlab
