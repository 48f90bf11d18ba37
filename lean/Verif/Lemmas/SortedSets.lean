import Verif.Model.SortedSets
import Mathlib.Data.List.Nodup
import Mathlib.Tactic.Linarith

namespace Verif

/-- Strictly increasing. -/
abbrev SSorted (l : List Nat) : Prop := l.Pairwise (· < ·)

theorem SSorted.dropWhile {l : List Nat} (h : SSorted l) (p : Nat → Bool) :
    SSorted (l.dropWhile p) :=
  List.Pairwise.sublist (List.dropWhile_sublist p) h

theorem SSorted.nodup {l : List Nat} (h : SSorted l) : l.Nodup :=
  h.imp (fun h => Nat.ne_of_lt h)

/-- In a sorted list, what `dropWhile (· < a)` removes is what is smaller than `a`. -/
theorem mem_dropWhile_lt {l : List Nat} (h : SSorted l) (a x : Nat) :
    x ∈ l.dropWhile (· < a) ↔ x ∈ l ∧ a ≤ x := by
  induction l with
  | nil => simp
  | cons b l ih =>
    have hl := (List.pairwise_cons.1 h)
    by_cases hb : b < a
    · rw [List.dropWhile_cons_of_pos (by simpa using hb), ih hl.2]
      constructor
      · rintro ⟨h1, h2⟩; exact ⟨List.mem_cons_of_mem _ h1, h2⟩
      · rintro ⟨h1, h2⟩
        rcases List.mem_cons.1 h1 with rfl | h1
        · omega
        · exact ⟨h1, h2⟩
    · rw [List.dropWhile_cons_of_neg (by simpa using hb)]
      constructor
      · intro h1
        refine ⟨h1, ?_⟩
        rcases List.mem_cons.1 h1 with rfl | h1
        · omega
        · have := hl.1 x h1; omega
      · exact fun h1 => h1.1

theorem mem_takeWhile_lt {l : List Nat} (h : SSorted l) (a x : Nat) :
    x ∈ l.takeWhile (· < a) ↔ x ∈ l ∧ x < a := by
  induction l with
  | nil => simp
  | cons b l ih =>
    have hl := (List.pairwise_cons.1 h)
    by_cases hb : b < a
    · rw [List.takeWhile_cons_of_pos (by simpa using hb), List.mem_cons, ih hl.2]
      constructor
      · rintro (rfl | ⟨h1, h2⟩)
        · exact ⟨by simp, hb⟩
        · exact ⟨List.mem_cons_of_mem _ h1, h2⟩
      · rintro ⟨h1, h2⟩
        rcases List.mem_cons.1 h1 with rfl | h1
        · exact .inl rfl
        · exact .inr ⟨h1, h2⟩
    · rw [List.takeWhile_cons_of_neg (by simpa using hb)]
      constructor
      · intro h1; simp at h1
      · rintro ⟨h1, h2⟩
        rcases List.mem_cons.1 h1 with rfl | h1
        · omega
        · have := hl.1 x h1; omega

theorem mem_setInter {a b : List Nat} (ha : SSorted a) (hb : SSorted b) (x : Nat) :
    x ∈ setInter a b ↔ x ∈ a ∧ x ∈ b := by
  induction a generalizing b with
  | nil => simp [setInter]
  | cons y a ih =>
    have hl := List.pairwise_cons.1 ha
    have hd := mem_dropWhile_lt hb y
    have hs := hb.dropWhile (fun z => decide (z < y))
    unfold setInter
    split
    · rename_i heq
      rw [heq] at hd
      constructor
      · intro h; simp at h
      · rintro ⟨h1, h2⟩
        have : x ∈ ([] : List Nat) := (hd x).2 ⟨h2, by
          rcases List.mem_cons.1 h1 with rfl | h1
          · exact le_refl _
          · exact (hl.1 x h1).le⟩
        simp at this
    · rename_i c bs heq
      rw [heq] at hd hs
      have hs2 := List.pairwise_cons.1 hs
      split
      · rename_i hc
        subst hc
        rw [List.mem_cons, ih hl.2 hs2.2]
        constructor
        · rintro (rfl | ⟨h1, h2⟩)
          · exact ⟨by simp, ((hd x).1 (by simp)).1⟩
          · exact ⟨List.mem_cons_of_mem _ h1, ((hd x).1 (by simp [h2])).1⟩
        · rintro ⟨h1, h2⟩
          rcases List.mem_cons.1 h1 with rfl | h1
          · exact .inl rfl
          · have hlt := hl.1 x h1
            have := (hd x).2 ⟨h2, hlt.le⟩
            rcases List.mem_cons.1 this with rfl | this
            · omega
            · exact .inr ⟨h1, this⟩
      · rename_i hc
        rw [ih hl.2 hs]
        constructor
        · rintro ⟨h1, h2⟩
          exact ⟨List.mem_cons_of_mem _ h1, ((hd x).1 h2).1⟩
        · rintro ⟨h1, h2⟩
          rcases List.mem_cons.1 h1 with rfl | h1
          · exfalso
            have h3 := (hd x).2 ⟨h2, le_refl _⟩
            have h4 := ((hd c).1 (by simp)).2
            rcases List.mem_cons.1 h3 with rfl | h3
            · exact hc rfl
            · have := hs2.1 x h3; omega
          · exact ⟨h1, (hd x).2 ⟨h2, (hl.1 x h1).le⟩⟩

theorem setInter_sublist (a b : List Nat) : (setInter a b).Sublist a := by
  induction a generalizing b with
  | nil => simp [setInter]
  | cons y a ih =>
    unfold setInter
    split
    · simp
    · split
      · exact (ih _).cons_cons y
      · exact (ih _).cons y

theorem setInter_sorted {a : List Nat} (ha : SSorted a) (b : List Nat) : SSorted (setInter a b) :=
  List.Pairwise.sublist (setInter_sublist a b) ha

theorem mem_setDiff {a b : List Nat} (ha : SSorted a) (hb : SSorted b) (x : Nat) :
    x ∈ setDiff a b ↔ x ∈ a ∧ x ∉ b := by
  induction a generalizing b with
  | nil => simp [setDiff]
  | cons y a ih =>
    have hl := List.pairwise_cons.1 ha
    have hd := mem_dropWhile_lt hb y
    have hs := hb.dropWhile (fun z => decide (z < y))
    unfold setDiff
    split
    · rename_i heq
      rw [heq] at hd
      constructor
      · intro h1
        refine ⟨h1, fun h2 => ?_⟩
        have : x ∈ ([] : List Nat) := (hd x).2 ⟨h2, by
          rcases List.mem_cons.1 h1 with rfl | h1
          · exact le_refl _
          · exact (hl.1 x h1).le⟩
        simp at this
      · exact fun h => h.1
    · rename_i c bs heq
      rw [heq] at hd hs
      have hs2 := List.pairwise_cons.1 hs
      split
      · rename_i hc
        subst hc
        rw [ih hl.2 hs2.2]
        constructor
        · rintro ⟨h1, h2⟩
          refine ⟨List.mem_cons_of_mem _ h1, fun h3 => h2 ?_⟩
          have hlt := hl.1 x h1
          have := (hd x).2 ⟨h3, hlt.le⟩
          rcases List.mem_cons.1 this with rfl | this
          · omega
          · exact this
        · rintro ⟨h1, h2⟩
          rcases List.mem_cons.1 h1 with rfl | h1
          · exact absurd ((hd x).1 (by simp)).1 h2
          · exact ⟨h1, fun h3 => h2 ((hd x).1 (by simp [h3])).1⟩
      · rename_i hc
        rw [List.mem_cons, ih hl.2 hs]
        constructor
        · rintro (rfl | ⟨h1, h2⟩)
          · refine ⟨by simp, fun h2 => ?_⟩
            have h3 := (hd x).2 ⟨h2, le_refl _⟩
            have h4 := ((hd c).1 (by simp)).2
            rcases List.mem_cons.1 h3 with rfl | h3
            · exact hc rfl
            · have := hs2.1 x h3; omega
          · refine ⟨List.mem_cons_of_mem _ h1, fun h3 => h2 ((hd x).2 ⟨h3, (hl.1 x h1).le⟩)⟩
        · rintro ⟨h1, h2⟩
          rcases List.mem_cons.1 h1 with rfl | h1
          · exact .inl rfl
          · exact .inr ⟨h1, fun h3 => h2 ((hd x).1 h3).1⟩

theorem setDiff_sublist (a b : List Nat) : (setDiff a b).Sublist a := by
  induction a generalizing b with
  | nil => simp [setDiff]
  | cons y a ih =>
    unfold setDiff
    split
    · exact List.Sublist.refl _
    · split
      · exact (ih _).cons y
      · exact (ih _).cons_cons y

theorem setDiff_sorted {a : List Nat} (ha : SSorted a) (b : List Nat) : SSorted (setDiff a b) :=
  List.Pairwise.sublist (setDiff_sublist a b) ha

/-- Union is membership-wise union for arbitrary lists (order aside). -/
theorem mem_setUnion (a b : List Nat) (x : Nat) :
    x ∈ setUnion a b ↔ x ∈ a ∨ x ∈ b := by
  induction a generalizing b with
  | nil => simp [setUnion]
  | cons y a ih =>
    have hsplit : x ∈ b ↔ x ∈ b.takeWhile (· < y) ∨ x ∈ b.dropWhile (· < y) := by
      rw [← List.mem_append, List.takeWhile_append_dropWhile]
    unfold setUnion
    rw [List.mem_append, hsplit]
    split
    · rename_i heq
      rw [heq]
      simp only [List.mem_cons, List.not_mem_nil, or_false]; tauto
    · rename_i c bs heq
      rw [heq]
      split
      · rename_i hc
        subst hc
        simp only [List.mem_cons, ih]; tauto
      · simp only [List.mem_cons, ih]; tauto

theorem setUnion_sorted {a b : List Nat} (ha : SSorted a) (hb : SSorted b) :
    SSorted (setUnion a b) := by
  induction a generalizing b with
  | nil => simpa [setUnion] using hb
  | cons y a ih =>
    have hl := List.pairwise_cons.1 ha
    have hd := mem_dropWhile_lt hb y
    have ht := mem_takeWhile_lt hb y
    have hs := hb.dropWhile (fun z => decide (z < y))
    have hts : SSorted (b.takeWhile (· < y)) :=
      List.Pairwise.sublist (List.takeWhile_sublist _) hb
    unfold setUnion
    rw [SSorted, List.pairwise_append]
    refine ⟨hts, ?_, ?_⟩
    · split
      · exact ha
      · rename_i c bs heq
        rw [heq] at hd hs
        have hs2 := List.pairwise_cons.1 hs
        split
        · rename_i hc
          subst hc
          refine List.pairwise_cons.2 ⟨?_, ih hl.2 hs2.2⟩
          intro z hz
          rcases (mem_setUnion _ _ _).1 hz with h | h
          · exact hl.1 z h
          · exact hs2.1 z h
        · rename_i hc
          refine List.pairwise_cons.2 ⟨?_, ih hl.2 hs⟩
          intro z hz
          have hcy : y < c := lt_of_le_of_ne ((hd c).1 (by simp)).2 (fun h => hc h.symm)
          rcases (mem_setUnion _ _ _).1 hz with h | h
          · exact hl.1 z h
          · rcases List.mem_cons.1 h with rfl | h
            · exact hcy
            · exact hcy.trans (hs2.1 z h)
    · intro u hu z hz
      have hu' := ((ht u).1 hu).2
      have hyz : y ≤ z := by
        split at hz
        · rcases List.mem_cons.1 hz with rfl | h
          · exact le_refl _
          · exact (hl.1 z h).le
        · rename_i c bs heq
          rw [heq] at hd hs
          split at hz
          · rename_i hc
            rcases List.mem_cons.1 hz with rfl | h
            · exact le_refl _
            · rcases (mem_setUnion _ _ _).1 h with h | h
              · exact (hl.1 z h).le
              · exact ((hd z).1 (by simp [h])).2
          · rcases List.mem_cons.1 hz with rfl | h
            · exact le_refl _
            · rcases (mem_setUnion _ _ _).1 h with h | h
              · exact (hl.1 z h).le
              · exact ((hd z).1 h).2
      omega

theorem mem_sortNat (l : List Nat) (x : Nat) : x ∈ sortNat l ↔ x ∈ l :=
  (List.perm_insertionSort _ l).mem_iff

theorem sortNat_perm (l : List Nat) : (sortNat l).Perm l := List.perm_insertionSort _ l

theorem sortNat_sorted {l : List Nat} (h : l.Nodup) : SSorted (sortNat l) := by
  have h1 : (sortNat l).Pairwise (· ≤ ·) := List.pairwise_insertionSort (· ≤ ·) l
  have h2 : (sortNat l).Nodup := (sortNat_perm l).nodup_iff.2 h
  exact (h1.and h2).imp (fun h => lt_of_le_of_ne h.1 h.2)

theorem sortNat_of_sorted {l : List Nat} (h : SSorted l) : sortNat l = l :=
  List.Pairwise.insertionSort_eq (h.imp (fun h => le_of_lt h))

end Verif
