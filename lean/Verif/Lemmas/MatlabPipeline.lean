import Verif.Lemmas.MatlabFaithful
import Verif.Lemmas.MatlabExtract

/-!
# Every block of the reduced program has entries
-/

namespace Verif.Matlab

open Spec

theorem noGap_cliques {S : Nat → Bool} {m off n : Nat} {A' : Nat → Nat → ℝ} {rest : List Nat} :
    ∀ {cl : List (List Nat)} {off' : Nat}, (∀ c ∈ cl, ∀ i ∈ c, i < n) → (∀ c ∈ cl, c.Nodup) →
    (∀ c ∈ cl, ∃ i ∈ c, ∃ j ∈ c, S (pos off n i j) = true) →
    (∀ t, t < (cl.flatMap (subMatIndex off n)).length →
      S ((cl.flatMap (subMatIndex off n)).getD t 0) = true → ∃ i, i < m ∧ A' i (off' + t) ≠ 0) →
    NoGap m A' rest (off' + (cl.flatMap (subMatIndex off n)).length) →
    NoGap m A' (cl.map List.length ++ rest) off' := by
  intro cl
  induction cl with
  | nil => intro off' _ _ _ _ h; simpa using h
  | cons c cl ih =>
    intro off' hlt hnd hS hA hr
    have hl := sorted_length (hlt c (by simp)) (hnd c (by simp))
    have hlen : (subMatIndex off n c).length = c.length * c.length := by
      rw [subMatIndex_length, hl]
    simp only [List.flatMap_cons, List.length_append, hlen] at hA hr
    simp only [List.map_cons, List.cons_append, NoGap]
    refine .inl ⟨?_, ?_⟩
    · obtain ⟨i, hi, j, hj, hs⟩ := hS c (by simp)
      obtain ⟨t, ht, hte⟩ := getD_keep ((mem_subMatIndex (off := off) (hlt c (by simp)) _).2
        ⟨i, hi, j, hj, rfl⟩)
      rw [hlen] at ht
      obtain ⟨r, hr, ha⟩ := hA t (by omega) (by
        rw [List.getD_eq_getElem?_getD, List.getElem?_append_left (by rw [hlen]; omega),
          ← List.getD_eq_getElem?_getD, hte]
        exact hs)
      exact ⟨r, off' + t, hr, by omega, by omega, ha⟩
    · refine ih (fun c hc => hlt c (by simp [hc])) (fun c hc => hnd c (by simp [hc]))
        (fun c hc => hS c (by simp [hc])) (fun t ht hs => ?_) (by rwa [Nat.add_assoc])
      have := hA (c.length * c.length + t) (by omega) (by
        rw [List.getD_eq_getElem?_getD, List.getElem?_append_right (by rw [hlen]; omega), hlen,
          Nat.add_sub_cancel_left, ← List.getD_eq_getElem?_getD]
        exact hs)
      rwa [← Nat.add_assoc] at this

theorem noGap_reduced {S : Nat → Bool} {m : Nat} {A' : Nat → Nat → ℝ} :
    ∀ {s : List Nat} {off : Nat} {cls : List (List (List Nat))} {off' : Nat}, Comp s off S cls →
    (∀ t, t < (maskIndex s off cls).length → S ((maskIndex s off cls).getD t 0) = true →
      ∃ i, i < m ∧ A' i (off' + t) ≠ 0) → NoGap m A' (maskSizes cls) off' := by
  intro s
  induction s with
  | nil =>
    intro off cls off' h _
    cases cls with
    | nil => trivial
    | cons _ _ => exact h.elim
  | cons n ns ih =>
    intro off cls off' h hA
    cases cls with
    | nil => exact h.elim
    | cons cl cls =>
      obtain ⟨⟨h1, h2, h3, -⟩, h5⟩ := h
      simp only [maskIndex, List.length_append] at hA
      have hnd := (List.nodup_flatten.1 h1.nodup).1
      have hs : maskSizes (cl :: cls) = cl.map List.length ++ maskSizes cls := by
        simp [maskSizes]
      rw [hs]
      refine noGap_cliques (S := S) (off := off) (n := n) h1.lt hnd (fun c hc => ?_) (fun t ht hst => ?_)
        (ih h5 fun t ht hst => ?_)
      · obtain ⟨i, hi⟩ := List.exists_mem_of_ne_nil _ (h1.ne c hc)
        obtain ⟨j, hj, hij⟩ := h3 c hc i hi
        obtain ⟨c', hc', hi', hj'⟩ := h2 i j (h1.lt c hc i hi) hj hij
        have := unique_of_flatten h1.nodup c hc c' hc' i hi hi'
        subst this
        exact ⟨i, hi, j, hj', hij⟩
      · refine hA t (by omega) ?_
        rw [List.getD_eq_getElem?_getD, List.getElem?_append_left ht, ← List.getD_eq_getElem?_getD]
        exact hst
      · have := hA ((cl.flatMap (subMatIndex off n)).length + t) (by omega) (by
          rw [List.getD_eq_getElem?_getD, List.getElem?_append_right (by omega),
            Nat.add_sub_cancel_left, ← List.getD_eq_getElem?_getD]
          exact hst)
        rwa [← Nat.add_assoc] at this

theorem blkdiag_noGap {P : Prob ℝ} (hP : P.Ok) : ∃ indx keep Q, blkdiag P = .ok (indx, keep, Q) ∧
    Q.N = numVar Q.s ∧ NoGap Q.m Q.A Q.s 0 := by
  obtain ⟨M, cls, L, M0, h1, h2⟩ := buildMask_ok P hP
  refine ⟨_, _, _, blkdiag_eq h1, restrict_dim h2.masked, ?_⟩
  refine noGap_reduced (off' := 0) h2.comp fun t ht hs => ?_
  obtain ⟨-, i, hi, -, ha⟩ := (spread_iff _ _ _).1 hs
  have hk : i ∈ eqKeep P.m (maskIndex P.s 0 cls).length
      (fun i j => P.A i ((maskIndex P.s 0 cls).getD j 0)) P.b :=
    mem_eqKeep.2 ⟨hi, .inl ⟨t, ht, ha⟩⟩
  obtain ⟨r, hr, he⟩ := getD_keep hk
  refine ⟨r, hr, ?_⟩
  show P.A ((eqKeep P.m (maskIndex P.s 0 cls).length
      (fun i j => P.A i ((maskIndex P.s 0 cls).getD j 0)) P.b).getD r 0)
    ((maskIndex P.s 0 cls).getD (0 + t) 0) ≠ 0
  rw [he, Nat.zero_add]
  exact ha

end Verif.Matlab
