import Verif.Spec.Layout
import Mathlib.Order.Nat
import Mathlib.Data.Nat.Init

/-!
# Lemmas on the layout of the memory
-/

namespace Verif.Layout

open Spec

theorem alignedSize_dvd (n : Nat) : 4 ∣ alignedSize n := by
  unfold alignedSize
  simp only
  split_ifs <;> omega

theorem le_alignedSize (n : Nat) : n ≤ alignedSize n := by
  unfold alignedSize
  simp only
  split_ifs <;> omega

theorem alignedSize_pos {n : Nat} (h : n ≠ 0) : 1 ≤ alignedSize n :=
  (Nat.one_le_iff_ne_zero.2 h).trans (le_alignedSize n)

/-- The regions follow each other: each one starts after the end of the previous ones and all lie
between `a` and `b`. -/
def Chain (a b : Nat) : List Region → Prop
  | [] => a ≤ b
  | r :: l => a ≤ r.start ∧ Chain (r.start + r.len) b l

theorem Chain.le {a b : Nat} {l : List Region} (h : Chain a b l) : a ≤ b := by
  induction l generalizing a with
  | nil => exact h
  | cons r l ih => exact h.1.trans ((Nat.le_add_right _ _).trans (ih h.2))

theorem Chain.mono {a a' b : Nat} {l : List Region} (h : Chain a b l) (ha : a' ≤ a) :
    Chain a' b l := by
  cases l with
  | nil => exact Nat.le_trans ha h
  | cons r l => exact ⟨ha.trans h.1, h.2⟩

theorem Chain.append {a b c : Nat} {l l' : List Region} (h : Chain a b l) (h' : Chain b c l') :
    Chain a c (l ++ l') := by
  induction l generalizing a with
  | nil => exact h'.mono h
  | cons r l ih => exact ⟨h.1, ih h.2⟩

theorem Chain.bounds {a b : Nat} {l : List Region} (h : Chain a b l) :
    ∀ r ∈ l, a ≤ r.start ∧ r.start + r.len ≤ b := by
  induction l generalizing a with
  | nil => simp
  | cons r l ih =>
    intro s hs
    rcases List.mem_cons.1 hs with rfl | hs
    · exact ⟨h.1, h.2.le⟩
    · obtain ⟨h1, h2⟩ := ih h.2 s hs
      exact ⟨h.1.trans ((Nat.le_add_right _ _).trans h1), h2⟩

theorem Chain.disjoint {a b : Nat} {l : List Region} (h : Chain a b l) :
    l.Pairwise fun r s => ¬ Overlap r s := by
  induction l generalizing a with
  | nil => exact List.Pairwise.nil
  | cons r l ih =>
    refine List.Pairwise.cons (fun s hs => ?_) (ih h.2)
    rintro ⟨i, ⟨-, h1⟩, h2, -⟩
    have := (h.2.bounds s hs).1
    omega

theorem size_even (w : Space) : 2 ∣ w.size := by
  cases w with
  | linear n m =>
    have := alignedSize_dvd n
    have := alignedSize_dvd (n * m)
    simp only [Space.size]
    omega
  | soc n =>
    have := alignedSize_dvd n
    simp only [Space.size]
    omega
  | psd n =>
    have := alignedSize_dvd (n * n)
    simp only [Space.size]
    omega
  | empty => exact Nat.dvd_zero 2
  | schur m r =>
    have := alignedSize_dvd m
    have := alignedSize_dvd (m * m)
    simp only [Space.size]
    split_ifs <;> omega
  | stats k =>
    simp only [Space.size]
    omega

theorem regions_chain (w : Space) (hw : w ≠ .soc 0) (a : Nat) :
    Chain a (a + w.size) (w.regions a) := by
  cases w with
  | linear n m =>
    have := le_alignedSize n
    have := le_alignedSize (n * m)
    simp only [Space.size, Space.regions, Chain, true_and]
    omega
  | soc n =>
    have hn : n ≠ 0 := fun h => hw (by rw [h])
    have := le_alignedSize n
    have := alignedSize_pos hn
    simp only [Space.size, Space.regions, Chain]
    omega
  | psd n =>
    have := le_alignedSize (n * n)
    simp only [Space.size, Space.regions, Chain]
    omega
  | empty => exact Nat.le_add_right _ _
  | schur m r =>
    have := le_alignedSize m
    have := le_alignedSize (m * m)
    cases r
    · simp only [Space.size, Space.regions, Chain, List.cons_append, List.nil_append,
        Bool.false_eq_true, if_false]
      omega
    · simp only [Space.size, Space.regions, Chain, List.cons_append, List.nil_append, if_true]
      omega
  | stats k =>
    simp only [Space.size, Space.regions, Chain]
    omega

theorem regions_aligned (w : Space) (a : Nat) (ha : 2 ∣ a) :
    ∀ r ∈ w.regions a, r.view = true → 2 ∣ r.start := by
  cases w with
  | linear n m =>
    have := alignedSize_dvd n
    simp only [Space.regions, List.forall_mem_cons, List.not_mem_nil, false_imp_iff, implies_true,
      and_true, true_imp_iff]
    omega
  | soc n =>
    have := alignedSize_dvd n
    simp only [Space.regions, List.forall_mem_cons, List.not_mem_nil, false_imp_iff, implies_true,
      and_true, true_imp_iff]
    omega
  | psd n =>
    have := alignedSize_dvd (n * n)
    simp only [Space.regions, List.forall_mem_cons, List.not_mem_nil, false_imp_iff, implies_true,
      and_true, true_imp_iff]
    omega
  | empty => simp [Space.regions]
  | schur m r =>
    have := alignedSize_dvd m
    cases r <;>
    · simp only [Space.regions, List.cons_append, List.nil_append, List.forall_mem_cons,
        List.not_mem_nil, false_imp_iff, implies_true, and_true, true_imp_iff, Bool.false_eq_true,
        if_false, if_true]
      omega
  | stats k => simp [Space.regions]

theorem bind_chain (l : List Space) (hl : ∀ w ∈ l, w ≠ .soc 0) (a : Nat) :
    Chain a (a + sizeOf l) (bind l a).flatten := by
  induction l generalizing a with
  | nil => exact Nat.le_refl _
  | cons w l ih =>
    simp only [bind, List.flatten_cons, sizeOf]
    rw [← Nat.add_assoc]
    exact (regions_chain w (hl w List.mem_cons_self) a).append
      (ih (fun v hv => hl v (List.mem_cons_of_mem _ hv)) _)

theorem bind_aligned (l : List Space) (a : Nat) (ha : 2 ∣ a) :
    ∀ r ∈ (bind l a).flatten, r.view = true → 2 ∣ r.start := by
  induction l generalizing a with
  | nil => simp [bind]
  | cons w l ih =>
    intro r hr
    simp only [bind, List.flatten_cons, List.mem_append] at hr
    rcases hr with hr | hr
    · exact regions_aligned w a ha r hr
    · exact ih _ (Nat.dvd_add ha (size_even w)) r hr

theorem bind_append (l l' : List Space) (a : Nat) :
    bind (l ++ l') a = bind l a ++ bind l' (a + sizeOf l) := by
  induction l generalizing a with
  | nil => rfl
  | cons w l ih =>
    simp only [List.cons_append, bind, sizeOf, ih, Nat.add_assoc]

theorem sizeOf_append (l l' : List Space) : sizeOf (l ++ l') = sizeOf l + sizeOf l' := by
  induction l with
  | nil => simp [sizeOf]
  | cons w l ih => simp only [List.cons_append, sizeOf, ih, Nat.add_assoc]

theorem bind_lengths (l : List Space) (a : Nat) :
    (bind l a).map (List.map Region.len) = l.map needs := by
  induction l generalizing a with
  | nil => rfl
  | cons w l ih =>
    simp only [bind, List.map_cons, ih]
    congr 1
    cases w with
    | schur m r => cases r <;> simp [Space.regions, needs]
    | _ => simp [Space.regions, needs]

end Verif.Layout
