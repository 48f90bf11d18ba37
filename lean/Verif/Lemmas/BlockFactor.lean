import Verif.Model.BlockFactor
import Verif.Spec.DenseFactor
import Verif.Lemmas.BlockAlgebra
import Verif.Lemmas.DenseFactor
import Verif.Lemmas.Assembler
import Verif.Props.TriangularWorkspace

/-!
# Lemmas about the block factorisations
-/

namespace Verif.Sup

open Finset Spec Verif.Dense Dense.Spec

variable {R : Type} [Field R]

section Full

variable {sz : List Nat} {sp : List (List Nat)}

open scoped Classical in
/-- The block of a column. -/
noncomputable def blk (sz : List Nat) (v : Nat) : Nat :=
  if h : ∃ k, InBlock sz k v then h.choose else sz.length

theorem blk_eq {k v : Nat} (h : InBlock sz k v) : blk sz v = k := by
  unfold blk
  have h' : ∃ k, InBlock sz k v := ⟨k, h⟩
  rw [dif_pos h']
  exact h'.choose_spec.unique h

theorem inBlock_blk {k v : Nat} (hk : k < sz.length) (h : blk sz v = k) : InBlock sz k v := by
  unfold blk at h
  split_ifs at h with h'
  · have := h'.choose_spec
    rwa [h] at this
  · omega

/-- The full matrix with the given diagonal and off-diagonal blocks. -/
noncomputable def full (sz : List Nat) (sp : List (List Nat)) (G Q : Nat → Nat → Nat → R)
    (i j : Nat) : R :=
  if blk sz i = blk sz j then G (blk sz j) (i - start sz (blk sz j)) (j - start sz (blk sz j))
  else if i ∈ sp.getD (blk sz j) [] then
    Q (blk sz j) (j - start sz (blk sz j)) ((sp.getD (blk sz j) []).idxOf i)
  else 0

theorem full_diag {G Q : Nat → Nat → Nat → R} {b i j : Nat} (hi : InBlock sz b i)
    (hj : InBlock sz b j) : full sz sp G Q i j = G b (i - start sz b) (j - start sz b) := by
  unfold full
  rw [blk_eq hi, blk_eq hj, if_pos rfl]

theorem not_inBlock_of_sep (P : Pattern sz sp) {b i : Nat} (hi : i ∈ sp.getD b []) :
    ¬ InBlock sz b i := fun h => by
  have := (P.sep_not_own hi).1
  have := h.2.2
  omega

theorem full_off (P : Pattern sz sp) {G Q : Nat → Nat → Nat → R} {b i j : Nat}
    (hi : i ∈ sp.getD b []) (hj : InBlock sz b j) :
    full sz sp G Q i j = Q b (j - start sz b) ((sp.getD b []).idxOf i) := by
  unfold full
  rw [blk_eq hj, if_neg, if_pos hi]
  intro h
  exact not_inBlock_of_sep P hi (inBlock_blk hj.1 h)

theorem full_zero {G Q : Nat → Nat → Nat → R} {b i j : Nat} (h1 : ¬ InBlock sz b i)
    (h2 : i ∉ sp.getD b []) (hj : InBlock sz b j) : full sz sp G Q i j = 0 := by
  unfold full
  rw [blk_eq hj, if_neg, if_neg h2]
  intro h
  exact h1 (inBlock_blk hj.1 h)

theorem full_upper (P : Pattern sz sp) (G Q : Nat → Nat → Nat → R) (k : Nat) (hk : k < sz.length)
    (i j : Nat) (hi : i < start sz (k + 1)) (hj : start sz (k + 1) ≤ j) :
    full sz sp G Q i j = 0 := by
  have hiN : i < sz.sum := lt_of_lt_of_le hi (start_le _ _)
  obtain ⟨a, ha⟩ := exists_block sz hiN
  by_cases hjN : j < sz.sum
  · obtain ⟨b, hb⟩ := exists_block sz hjN
    have hkb : k < b := by
      by_contra hcon
      have := start_mono sz (show b + 1 ≤ k + 1 by omega)
      have := hb.2.2
      omega
    have hib : i < start sz b := lt_of_lt_of_le hi (start_mono sz (by omega))
    apply full_zero _ _ hb
    · intro h; have := h.2.1; omega
    · intro h
      have := (P.sep_not_own h).1
      have := start_mono sz (show b ≤ b + 1 by omega)
      omega
  · have hb : blk sz j = sz.length := by
      unfold blk
      rw [dif_neg]
      rintro ⟨k, h⟩
      exact hjN h.lt_sum
    unfold full
    rw [hb, blk_eq ha, if_neg (by have := ha.1; omega), if_neg]
    rw [List.getD_eq_getElem?_getD, List.getElem?_eq_none (by rw [P.len])]
    simp

theorem start_succ' {k : Nat} (hk : k < sz.length) :
    start sz (k + 1) = start sz k + sz.getD k 0 := by
  rw [start_succ _ hk, List.getD_eq_getElem?_getD, List.getElem?_eq_getElem hk]; rfl

theorem block_sum {k : Nat} (hk : k < sz.length) (f : Nat → R) :
    ∑ l ∈ Ico (start sz k) (start sz (k + 1)), f l = ∑ r ∈ range (sz.getD k 0), f (start sz k + r) := by
  rw [sum_Ico_eq_sum_range, start_succ' hk, Nat.add_sub_cancel_left]

theorem inBlock_add {k r : Nat} (hk : k < sz.length) (hr : r < sz.getD k 0) :
    InBlock sz k (start sz k + r) := ⟨hk, by omega, by rw [start_succ' hk]; omega⟩

theorem Spec.InBlock.sub_lt {k v : Nat} (h : InBlock sz k v) : v - start sz k < sz.getD k 0 := by
  have := h.2.1; have h3 := h.2.2
  rw [start_succ' h.1] at h3
  omega

theorem valid_block {a : Cell} (h : Valid sz sp a) : InBlock sz a.block (coord sz sp a).2 := by
  cases a with
  | diag k r c => exact inBlock_add h.1 h.2.2
  | off k r c => exact inBlock_add h.1 h.2.1

/-- Which entry the stored matrix has at `(i, j)`, `j ≤ i`. -/
noncomputable def ent (sz : List Nat) (sp : List (List Nat)) (S : Store R) : Nat → Nat → R :=
  full sz sp (fun b r c => S (.diag b r c)) (fun b r c => S (.off b r c))

/-- Either a cell stands for the entry, or it is zero. -/
theorem ent_cases (P : Pattern sz sp) {i j : Nat} (hi : i < sz.sum) (hj : j < sz.sum) :
    (∃ a, Valid sz sp a ∧ coord sz sp a = (i, j) ∧ ∀ S : Store R, ent sz sp S i j = S a) ∨
    ((∀ S : Store R, ent sz sp S i j = 0) ∧
      ∀ b, InBlock sz b j → ¬ InBlock sz b i ∧ i ∉ sp.getD b []) := by
  obtain ⟨b, hb⟩ := exists_block sz hj
  by_cases h1 : InBlock sz b i
  · left
    refine ⟨.diag b (i - start sz b) (j - start sz b), ⟨hb.1, h1.sub_lt, hb.sub_lt⟩, ?_,
      fun S => full_diag h1 hb⟩
    simp only [coord, Prod.mk.injEq]
    exact ⟨by have := h1.2.1; omega, by have := hb.2.1; omega⟩
  · by_cases h2 : i ∈ sp.getD b []
    · left
      refine ⟨.off b (j - start sz b) ((sp.getD b []).idxOf i),
        ⟨hb.1, hb.sub_lt, List.idxOf_lt_length_of_mem h2⟩, ?_, fun S => full_off P h2 hb⟩
      simp only [coord, Prod.mk.injEq]
      refine ⟨?_, by have := hb.2.1; omega⟩
      rw [List.getD_eq_getElem?_getD (l := sp.getD b []),
        List.getElem?_eq_getElem (List.idxOf_lt_length_of_mem h2)]
      simp
    · right
      refine ⟨fun S => full_zero h1 h2 hb, fun b' hb' => ?_⟩
      have := hb'.unique hb
      subst this
      exact ⟨h1, h2⟩

/-- Reading the stored matrix. -/
theorem denseSym_eq (P : Pattern sz sp) {path : List (List Nat)} (hp : IsPath sz sp path)
    (hne : sz ≠ []) {w : Workspace} (hw : workspaceInit path sz = .ok w) (S : Store R) {i j : Nat}
    (hi : i < sz.sum) (hj : j < sz.sum) :
    denseSym w S i j = .ok (ent sz sp S (max i j) (min i j)) := by
  obtain ⟨w', hw', hg⟩ := C17_get sz sp path P hp hne
  rw [hw] at hw'
  simp only [Outcome.ok.injEq] at hw'
  subst hw'
  have hmax : max i j < sz.sum := max_lt hi hj
  have hmin : min i j < sz.sum := lt_of_le_of_lt (min_le_left _ _) hi
  obtain ⟨o, ho, hoa⟩ := hg _ _ hmax hmin
  unfold denseSym
  rw [ho]
  simp only [Outcome.bind]
  rcases ent_cases (R := R) P hmax hmin with ⟨a, ha1, ha2, ha3⟩ | ⟨h1, h2⟩
  · have := (hoa a).2 ⟨min_le_max, ha1, ha2⟩
    subst this
    rw [ha3]
  · cases o with
    | none => rw [h1]
    | some a =>
      exfalso
      obtain ⟨_, ha1, ha2⟩ := (hoa a).1 rfl
      have hb := valid_block ha1
      rw [ha2] at hb
      obtain ⟨h3, h4⟩ := h2 _ hb
      cases a with
      | diag k r c =>
        simp only [coord, Prod.mk.injEq] at ha2
        apply h3
        rw [← ha2.1]
        exact inBlock_add ha1.1 ha1.2.1
      | off k r c =>
        simp only [coord, Prod.mk.injEq] at ha2
        apply h4
        rw [← ha2.1]
        simp only [Cell.block]
        rw [List.getD_eq_getElem?_getD (l := sp.getD k []), List.getElem?_eq_getElem ha1.2.2]
        exact List.getElem_mem _

end Full

/-! ### One block of a factorisation, abstractly -/

section Step

variable {sz : List Nat} {sp : List (List Nat)} {k : Nat} {F : Nat → Nat → R} {g X : Nat → Nat → R}

/-- The part of the factor in the columns of block `k`: `g` on the diagonal, `Xᵀ` in the separator. -/
structure ColsOK (sz : List Nat) (sp : List (List Nat)) (k : Nat) (F : Nat → Nat → R)
    (g X : Nat → Nat → R) : Prop where
  diag : ∀ i l, InBlock sz k i → InBlock sz k l → F i l = g (i - start sz k) (l - start sz k)
  off : ∀ i l, i ∈ sp.getD k [] → InBlock sz k l →
    F i l = X (l - start sz k) ((sp.getD k []).idxOf i)
  zero : ∀ i l, ¬ InBlock sz k i → i ∉ sp.getD k [] → InBlock sz k l → F i l = 0

theorem colsOK_full (P : Pattern sz sp) (G Q : Nat → Nat → Nat → R) (k : Nat) :
    ColsOK sz sp k (full sz sp G Q) (G k) (Q k) :=
  ⟨fun _ _ h1 h2 => full_diag h1 h2, fun _ _ h1 h2 => full_off P h1 h2,
    fun _ _ h1 h2 h3 => full_zero h1 h2 h3⟩

theorem step_factor (P : Pattern sz sp) (hk : k < sz.length) (C : ColsOK sz sp k F g X)
    {S S' : Store R} {D d : Nat → R}
    (hD : ∀ l, InBlock sz k l → D l = d (l - start sz k))
    (h1 : ∀ r c, c ≤ r → r < sz.getD k 0 →
      ∑ l ∈ range (sz.getD k 0), g r l * d l * g c l = S (.diag k r c))
    (h2 : ∀ r c, r < sz.getD k 0 → c < (sp.getD k []).length →
      ∑ l ∈ range (sz.getD k 0), g r l * d l * X l c = S (.off k r c))
    (hS' : ∀ a, Valid sz sp a → start sz (k + 1) ≤ (coord sz sp a).2 →
      (coord sz sp a).2 ≤ (coord sz sp a).1 →
      S' a = if (coord sz sp a).1 ∈ sp.getD k [] ∧ (coord sz sp a).2 ∈ sp.getD k [] then
        S a - ∑ l ∈ range (sz.getD k 0), d l * X l ((sp.getD k []).idxOf (coord sz sp a).2) *
          X l ((sp.getD k []).idxOf (coord sz sp a).1) else S a) :
    (∀ i j, start sz k ≤ j → j < start sz (k + 1) → j ≤ i → i < sz.sum →
      ent sz sp S i j = ∑ l ∈ Ico (start sz k) (start sz (k + 1)), F i l * D l * F j l) ∧
    (∀ i j, start sz (k + 1) ≤ j → j ≤ i → i < sz.sum →
      ent sz sp S' i j = ent sz sp S i j -
        ∑ l ∈ Ico (start sz k) (start sz (k + 1)), F i l * D l * F j l) := by
  have hin : ∀ r, r < sz.getD k 0 → InBlock sz k (start sz k + r) := fun r hr => inBlock_add hk hr
  constructor
  · intro i j hj1 hj2 hij hi
    have hj : InBlock sz k j := ⟨hk, hj1, hj2⟩
    rw [block_sum hk]
    by_cases hik : InBlock sz k i
    · have : ent sz sp S i j = S (.diag k (i - start sz k) (j - start sz k)) := full_diag hik hj
      rw [this, ← h1 _ _ (by omega) hik.sub_lt]
      refine sum_congr rfl fun l hl => ?_
      have hl' := hin l (mem_range.1 hl)
      rw [C.diag _ _ hik hl', C.diag _ _ hj hl', hD _ hl']
      simp
    · by_cases his : i ∈ sp.getD k []
      · have : ent sz sp S i j = S (.off k (j - start sz k) ((sp.getD k []).idxOf i)) :=
          full_off P his hj
        rw [this, ← h2 _ _ hj.sub_lt (List.idxOf_lt_length_of_mem his)]
        refine sum_congr rfl fun l hl => ?_
        have hl' := hin l (mem_range.1 hl)
        rw [C.off _ _ his hl', C.diag _ _ hj hl', hD _ hl']
        simp only [Nat.add_sub_cancel_left]
        ring
      · have : ent sz sp S i j = 0 := full_zero hik his hj
        rw [this]
        symm
        apply sum_eq_zero
        intro l hl
        rw [C.zero _ _ hik his (hin l (mem_range.1 hl))]
        ring
  · intro i j hj hij hi
    have hnb : ∀ v, start sz (k + 1) ≤ v → ¬ InBlock sz k v := fun v hv h => by
      have := h.2.2; omega
    have hsum : ∑ l ∈ Ico (start sz k) (start sz (k + 1)), F i l * D l * F j l =
        if i ∈ sp.getD k [] ∧ j ∈ sp.getD k [] then
          ∑ l ∈ range (sz.getD k 0), d l * X l ((sp.getD k []).idxOf j) *
            X l ((sp.getD k []).idxOf i) else 0 := by
      rw [block_sum hk]
      by_cases h : i ∈ sp.getD k [] ∧ j ∈ sp.getD k []
      · rw [if_pos h]
        refine sum_congr rfl fun l hl => ?_
        have hl' := hin l (mem_range.1 hl)
        rw [C.off _ _ h.1 hl', C.off _ _ h.2 hl', hD _ hl']
        simp only [Nat.add_sub_cancel_left]
        ring
      · rw [if_neg h]
        apply sum_eq_zero
        intro l hl
        have hl' := hin l (mem_range.1 hl)
        by_cases hi' : i ∈ sp.getD k []
        · rw [C.zero j _ (hnb j hj) (fun hj' => h ⟨hi', hj'⟩) hl']; ring
        · rw [C.zero i _ (hnb i (by omega)) hi' hl']; ring
    rw [hsum]
    rcases ent_cases (R := R) P hi (show j < sz.sum by omega) with ⟨a, ha1, ha2, ha3⟩ | ⟨e1, e2⟩
    · rw [ha3, ha3, hS' a ha1 (by rw [ha2]; exact hj) (by rw [ha2]; exact hij)]
      rw [ha2]
      split_ifs
      · rfl
      · rw [sub_zero]
    · rw [e1, e1, if_neg, sub_zero]
      rintro ⟨hi', hj'⟩
      obtain ⟨b, hb⟩ := exists_block sz (show j < sz.sum by omega)
      obtain ⟨e3, e4⟩ := e2 b hb
      rcases P.closed' hj' hi' hij hb with h | h
      · exact e3 h
      · exact e4 h

theorem setSeg_in (y : Nat → R) {s n : Nat} (z : Nat → R) {r : Nat} (h : r < n) :
    setSeg y s n z (s + r) = z r := by
  unfold setSeg
  rw [if_pos ⟨by omega, by omega⟩, Nat.add_sub_cancel_left]

theorem setSeg_out (y : Nat → R) {s n : Nat} (z : Nat → R) {v : Nat} (h : v < s ∨ s + n ≤ v) :
    setSeg y s n z v = y v := by
  unfold setSeg
  rw [if_neg (by omega)]

theorem step_forward (P : Pattern sz sp) (hk : k < sz.length) (C : ColsOK sz sp k F g X)
    {y y' z : Nat → R}
    (hz : ∀ r, r < sz.getD k 0 → ∑ c ∈ range (sz.getD k 0), g r c * z c = y (start sz k + r))
    (hy' : ∀ v, y' v =
      if v ∈ sp.getD k [] then
        setSeg y (start sz k) (sz.getD k 0) z v -
          ∑ r ∈ range (sz.getD k 0), X r ((sp.getD k []).idxOf v) * z r
      else setSeg y (start sz k) (sz.getD k 0) z v) :
    (∀ i, i < start sz k → y' i = y i) ∧
    (∀ i, start sz k ≤ i → i < start sz (k + 1) →
      ∑ j ∈ Ico (start sz k) (start sz (k + 1)), F i j * y' j = y i) ∧
    (∀ i, start sz (k + 1) ≤ i →
      y' i = y i - ∑ j ∈ Ico (start sz k) (start sz (k + 1)), F i j * y' j) := by
  have hs := start_succ' hk
  have hnot : ∀ v, v < start sz (k + 1) → v ∉ sp.getD k [] := fun v hv h => by
    have := (P.sep_not_own h).1; omega
  have hin : ∀ r, r < sz.getD k 0 → InBlock sz k (start sz k + r) := fun r hr => inBlock_add hk hr
  have hyk : ∀ r, r < sz.getD k 0 → y' (start sz k + r) = z r := by
    intro r hr
    rw [hy', if_neg (hnot _ (by omega)), setSeg_in _ _ hr]
  refine ⟨?_, ?_, ?_⟩
  · intro i hi
    rw [hy', if_neg (hnot _ (by omega)), setSeg_out _ _ (.inl hi)]
  · intro i h1 h2
    have hi : InBlock sz k i := ⟨hk, h1, h2⟩
    rw [block_sum hk]
    have := hz _ hi.sub_lt
    rw [show start sz k + (i - start sz k) = i by omega] at this
    rw [← this]
    refine sum_congr rfl fun r hr => ?_
    have hr' := mem_range.1 hr
    rw [hyk r hr', C.diag _ _ hi (hin r hr'), Nat.add_sub_cancel_left]
  · intro i h1
    rw [block_sum hk, hy']
    have hni : ¬ InBlock sz k i := fun h => by have := h.2.2; omega
    rw [setSeg_out _ _ (.inr (by omega))]
    by_cases hi : i ∈ sp.getD k []
    · rw [if_pos hi]
      congr 1
      refine sum_congr rfl fun r hr => ?_
      have hr' := mem_range.1 hr
      rw [hyk r hr', C.off _ _ hi (hin r hr'), Nat.add_sub_cancel_left]
    · rw [if_neg hi]
      rw [sum_eq_zero, sub_zero]
      intro r hr
      rw [C.zero _ _ hni hi (hin r (mem_range.1 hr)), zero_mul]

theorem step_backward (hk : k < sz.length) (C : ColsOK sz sp k F g X) {y y' x : Nat → R}
    (hx : ∀ c, c < sz.getD k 0 → ∑ r ∈ range (sz.getD k 0), g r c * x r = y (start sz k + c))
    (hy' : ∀ v, start sz k ≤ v → y' v = setSeg y (start sz k) (sz.getD k 0) x v)
    (hy'' : ∀ v, v < start sz k → y' v = y v -
      ∑ r ∈ range (sz.getD k 0), F (start sz k + r) v * x r) :
    (∀ i, start sz (k + 1) ≤ i → y' i = y i) ∧
    (∀ i, start sz k ≤ i → i < start sz (k + 1) →
      ∑ j ∈ Ico (start sz k) (start sz (k + 1)), F j i * y' j = y i) ∧
    (∀ i, i < start sz k →
      y' i = y i - ∑ j ∈ Ico (start sz k) (start sz (k + 1)), F j i * y' j) := by
  have hs := start_succ' hk
  have hin : ∀ r, r < sz.getD k 0 → InBlock sz k (start sz k + r) := fun r hr => inBlock_add hk hr
  have hyk : ∀ r, r < sz.getD k 0 → y' (start sz k + r) = x r := by
    intro r hr
    rw [hy' _ (by omega), setSeg_in _ _ hr]
  refine ⟨?_, ?_, ?_⟩
  · intro i hi
    rw [hy' _ (by omega), setSeg_out _ _ (.inr (by omega))]
  · intro i h1 h2
    have hi : InBlock sz k i := ⟨hk, h1, h2⟩
    rw [block_sum hk]
    have := hx _ hi.sub_lt
    rw [show start sz k + (i - start sz k) = i by omega] at this
    rw [← this]
    refine sum_congr rfl fun r hr => ?_
    have hr' := mem_range.1 hr
    rw [hyk r hr', C.diag _ _ (hin r hr') hi, Nat.add_sub_cancel_left]
  · intro i h1
    rw [block_sum hk, hy'' i h1]
    congr 1
    refine sum_congr rfl fun r hr => ?_
    rw [hyk r (mem_range.1 hr)]

end Step

/-! ### The loops over cells -/

theorem mem_lowerPairs_of {l : List Nat} (hl : l.Pairwise (· < ·)) {r c : Nat} (hr : r ∈ l)
    (hc : c ∈ l) (h : c ≤ r) : (r, c) ∈ lowerPairs l := by
  induction l with
  | nil => simp at hr
  | cons x l ih =>
    rw [List.pairwise_cons] at hl
    simp only [lowerPairs, List.mem_append, List.mem_map]
    rcases List.mem_cons.1 hc with rfl | hc'
    · exact .inl ⟨r, hr, rfl⟩
    · rcases List.mem_cons.1 hr with rfl | hr'
      · have := hl.1 c hc'; omega
      · exact .inr (ih hl.2 hr' hc')

theorem zip_map_eq {α β γ : Type} (f : α → γ) (g : β → γ) :
    ∀ (l : List α) (m : List β), m.map g = l.map f → ∀ q ∈ l.zip m, g q.2 = f q.1
  | [], _, _ => by simp
  | _ :: _, [], h => by simp at h
  | a :: l, b :: m, h => by
    simp only [List.map_cons, List.cons.injEq] at h
    intro q hq
    simp only [List.zip_cons_cons, List.mem_cons] at hq
    rcases hq with rfl | hq
    · exact h.1
    · exact zip_map_eq f g l m h.2 q hq

theorem range_map_getD (l : List Nat) : (List.range l.length).map (fun i => l.getD i 0) = l := by
  apply List.ext_getElem
  · simp
  · intro i h1 h2
    simp [List.getD_eq_getElem?_getD, List.getElem?_eq_getElem h2]

theorem subtractProducts_apply {sz : List Nat} {sp : List (List Nat)} {s : List Nat}
    {cells : List Cell} (hs : s.Pairwise (· < ·))
    (hc : cells.map (coord sz sp) = lowerPairs s) (val : Nat → Nat → R) (S : Store R) (a : Cell) :
    subtractProducts cells s.length val S a =
      if a ∈ cells then S a - val (s.idxOf (coord sz sp a).2) (s.idxOf (coord sz sp a).1)
      else S a := by
  have hnd : s.Nodup := SSorted.nodup hs
  have e1 : lowerPairs s = (lowerPairs (List.range s.length)).map
      (fun p => (s.getD p.1 0, s.getD p.2 0)) := by
    conv_lhs => rw [← range_map_getD s]
    exact lowerPairs_map _ _
  have hlen : (lowerPairs (List.range s.length)).length = cells.length := by
    have := congrArg List.length hc
    rw [e1] at this
    simpa using this.symm
  have hzip := zip_map_eq (fun p : Nat × Nat => (s.getD p.1 0, s.getD p.2 0)) (coord sz sp)
    (lowerPairs (List.range s.length)) cells (hc.trans e1)
  have hsnd : ((lowerPairs (List.range s.length)).zip cells).map (·.2) = cells :=
    List.map_snd_zip (by omega)
  have hcn : cells.Nodup := by
    apply List.Nodup.of_map (coord sz sp)
    rw [hc]
    exact lowerPairs_nodup hnd
  have hidx : ∀ i, i < s.length → s.idxOf (s.getD i 0) = i := by
    intro i hi
    rw [List.getD_eq_getElem?_getD, List.getElem?_eq_getElem hi]
    exact List.Nodup.idxOf_getElem hnd i hi
  have key := foldl_add ((lowerPairs (List.range s.length)).zip cells) (·.2)
    (fun p => - val p.1.2 p.1.1)
    (fun a => - val (s.idxOf (coord sz sp a).2) (s.idxOf (coord sz sp a).1))
    (by
      intro q hq
      have h1 := hzip q hq
      have h2 := mem_lowerPairs (List.of_mem_zip hq).1
      simp only [List.mem_range] at h2
      simp only [h1, hidx _ h2.1, hidx _ h2.2])
    (by rw [hsnd]; exact hcn) S a
  rw [hsnd] at key
  unfold subtractProducts
  simp only [sub_eq_add_neg]
  exact key

theorem subSep_apply_aux (temp : Nat → R) : ∀ (l : List Nat) (o : Nat) (y : Nat → R), l.Nodup →
    ∀ v, ((l.zipIdx o).foldl (fun y p => fun v => if v = p.1 then y v - temp p.2 else y v) y) v =
      if v ∈ l then y v - temp (o + l.idxOf v) else y v
  | [], o, y, _, v => by simp
  | x :: l, o, y, h, v => by
    rw [List.nodup_cons] at h
    rw [List.zipIdx_cons, List.foldl_cons, subSep_apply_aux temp l (o + 1) _ h.2 v]
    by_cases hv : v = x
    · subst hv
      rw [if_neg h.1]
      simp
    · rw [List.idxOf_cons_ne _ (Ne.symm hv)]
      simp only [List.mem_cons, hv, false_or, if_false]
      split_ifs
      · rw [show o + 1 + l.idxOf v = o + (l.idxOf v).succ by omega]
      · rfl

theorem subSep_apply {sz : List Nat} {sp : List (List Nat)} (P : Pattern sz sp) {w : Workspace}
    (W : WsOK sz sp w) (k : Nat) (temp y : Nat → R) (v : Nat) :
    subSep w k temp y v =
      if v ∈ sp.getD k [] then y v - temp ((sp.getD k []).idxOf v) else y v := by
  unfold subSep
  rw [W.sep_eq, subSep_apply_aux temp _ 0 y (SSorted.nodup (P.sep_sorted k)) v, Nat.zero_add]

theorem WsOK.fwdStart_eq {sz : List Nat} {sp : List (List Nat)} {w : Workspace} (W : WsOK sz sp w) :
    ∀ k, k ≤ sz.length → w.fwdStart k = start sz k
  | 0, _ => by simp [Workspace.fwdStart, start_zero]
  | k + 1, h => by
    rw [Workspace.fwdStart, W.fwdStart_eq k (by omega), W.size_eq, start_succ' (by omega)]

theorem WsOK.bwdAt_eq {sz : List Nat} {sp : List (List Nat)} {w : Workspace} (W : WsOK sz sp w)
    {k : Nat} (hk : k < sz.length) : w.bwdAt k = start sz k := by
  have key : ∀ t, t < sz.length → w.bwdStart t = start sz (sz.length - 1 - t) := by
    intro t
    induction t with
    | zero =>
      intro h
      rw [Workspace.bwdStart, W.sizes, W.N, W.size_eq]
      have := start_succ' (sz := sz) (k := sz.length - 1) (by omega)
      rw [show sz.length - 1 + 1 = sz.length by omega, start_of_ge _ le_rfl] at this
      rw [Nat.sub_zero]
      omega
    | succ t ih =>
      intro h
      rw [Workspace.bwdStart, ih (by omega), W.sizes, W.size_eq]
      have := start_succ' (sz := sz) (k := sz.length - 1 - (t + 1)) (by omega)
      rw [show sz.length - 1 - (t + 1) + 1 = sz.length - 1 - t by omega] at this
      omega
  unfold Workspace.bwdAt
  rw [W.sizes, key _ (by omega)]
  congr 1
  omega

/-- Contribution of the intersections to entry `v`. -/
noncomputable def interSum (sz : List Nat) (S : Store R) (src : Nat → R) (v : Nat)
    (e : Nat × List (Nat × Nat)) : R :=
  if InBlock sz e.1 v then
    (e.2.map fun p => S (.off e.1 (v - start sz e.1) p.2) * src p.1).sum else 0

theorem foldl_resid (s n : Nat) (q : Nat → Nat → R) (src : Nat → R) :
    ∀ (ps : List (Nat × Nat)) (y : Nat → R) (v : Nat),
    (ps.foldl (fun y p => fun v =>
      if s ≤ v ∧ v < s + n then y v - q v p.2 * src p.1 else y v) y) v =
    if s ≤ v ∧ v < s + n then y v - (ps.map fun p => q v p.2 * src p.1).sum else y v
  | [], y, v => by simp
  | p :: ps, y, v => by
    rw [List.foldl_cons, foldl_resid s n q src ps]
    by_cases h : s ≤ v ∧ v < s + n
    · simp only [if_pos h, List.map_cons, List.sum_cons]
      ring
    · simp only [if_neg h]

theorem residLoop_apply {sz : List Nat} {sp : List (List Nat)} {w : Workspace} (W : WsOK sz sp w)
    (S : Store R) (src : Nat → R) : ∀ (E : List (Nat × List (Nat × Nat))) (cur : Nat) (y : Nat → R),
    E.Pairwise (fun a b => b.1 < a.1) → (∀ e ∈ E, e.1 ≤ cur ∧ e.1 < sz.length) → ∀ v,
    residLoop' w S src E cur y v = y v - (E.map (interSum sz S src v)).sum
  | [], _, y, _, _, v => by simp [residLoop']
  | (j, ps) :: E, cur, y, hd, hle, v => by
    rw [List.pairwise_cons] at hd
    have hj := hle (j, ps) (by simp)
    simp only at hj
    have hcur : min cur j = j := by omega
    rw [residLoop', hcur]
    simp only [W.bwdAt_eq hj.2, W.size_eq]
    rw [residLoop_apply W S src E j _ hd.2 (fun e he => ⟨(hd.1 e he).le,
      (hle e (List.mem_cons_of_mem _ he)).2⟩) v]
    rw [foldl_resid (start sz j) (sz.getD j 0) (fun v c => S (.off j (v - start sz j) c)) src]
    have hiff : (start sz j ≤ v ∧ v < start sz j + sz.getD j 0) ↔ InBlock sz j v := by
      unfold InBlock
      rw [start_succ' hj.2]
      exact ⟨fun h => ⟨hj.2, h.1, h.2⟩, fun h => ⟨h.2.1, h.2.2⟩⟩
    simp only [List.map_cons, List.sum_cons, interSum]
    by_cases h : InBlock sz j v
    · rw [if_pos (hiff.2 h), if_pos h]; ring
    · rw [if_neg (fun h' => h (hiff.1 h')), if_neg h]; ring

theorem interOf_desc (sz : List Nat) (b : Nat) : ∀ (ss : List (List Nat)) (cnt : Nat)
    (l : List (Nat × List (Nat × Nat))), l.Pairwise (fun a b => b.1 < a.1) → (∀ e ∈ l, e.1 < cnt) →
    (interOf sz b ss cnt l).Pairwise (fun a b => b.1 < a.1) ∧
    ∀ e ∈ interOf sz b ss cnt l, e.1 < cnt + ss.length
  | [], cnt, l, h1, h2 => ⟨h1, by simpa [interOf] using h2⟩
  | s :: ss, cnt, l, h1, h2 => by
    rw [interOf]
    have := interOf_desc sz b ss (cnt + 1) (consPairs cnt (pairsOf sz (b + 1) s 0) l) ?_ ?_
    · refine ⟨this.1, fun e he => ?_⟩
      have := this.2 e he
      simp only [List.length_cons]
      omega
    · unfold consPairs
      split
      · exact h1
      · exact List.pairwise_cons.2 ⟨fun e he => h2 e he, h1⟩
    · unfold consPairs
      split
      · intro e he; have := h2 e he; omega
      · intro e he
        rcases List.mem_cons.1 he with rfl | he
        · simp
        · have := h2 e he; omega

theorem interOf_sum {sz : List Nat} (S : Store R) (src : Nat → R) {v j : Nat}
    (hv : InBlock sz j v) (b : Nat) : ∀ (ss : List (List Nat)) (cnt : Nat)
    (l : List (Nat × List (Nat × Nat))),
    ((interOf sz b ss cnt l).map (interSum sz S src v)).sum =
      (l.map (interSum sz S src v)).sum +
      if cnt ≤ j ∧ j < cnt + ss.length then
        ((pairsOf sz (b + 1) (ss.getD (j - cnt) []) 0).map fun p =>
          S (.off j (v - start sz j) p.2) * src p.1).sum else 0
  | [], cnt, l => by
    rw [interOf, if_neg (by simp only [List.length_nil]; omega), add_zero]
  | s :: ss, cnt, l => by
    rw [interOf, interOf_sum S src hv b ss (cnt + 1)]
    have hcons : ((consPairs cnt (pairsOf sz (b + 1) s 0) l).map (interSum sz S src v)).sum =
        (l.map (interSum sz S src v)).sum +
        interSum sz S src v (cnt, pairsOf sz (b + 1) s 0) := by
      unfold consPairs
      split
      · next h => simp [interSum, h]
      · next h => rw [List.map_cons, List.sum_cons]; ring
    rw [hcons]
    simp only [List.length_cons]
    by_cases hj : cnt = j
    · subst hj
      rw [if_neg (by omega), if_pos (by omega), Nat.sub_self, List.getD_cons_zero]
      simp only [interSum, if_pos hv, add_zero]
    · have : interSum sz S src v (cnt, pairsOf sz (b + 1) s 0) = 0 := by
        unfold interSum
        rw [if_neg]
        intro h
        exact hj (h.unique hv)
      rw [this, add_zero]
      by_cases hj' : cnt + 1 ≤ j ∧ j < cnt + 1 + ss.length
      · rw [if_pos hj', if_pos (by omega)]
        obtain ⟨d, rfl⟩ : ∃ d, j = cnt + 1 + d := ⟨j - (cnt + 1), by omega⟩
        rw [show cnt + 1 + d - cnt = d + 1 by omega, show cnt + 1 + d - (cnt + 1) = d by omega,
          List.getD_cons_succ]
      · rw [if_neg hj', if_neg (by omega)]

theorem pairsOf_sum {sz : List Nat} {b : Nat} (hb : b < sz.length) (q src : Nat → R) :
    ∀ (vs : List Nat) (o : Nat), vs.Nodup →
    ((pairsOf sz b vs o).map fun p => q p.2 * src p.1).sum =
      ∑ r ∈ range (sz.getD b 0),
        if start sz b + r ∈ vs then q (o + vs.idxOf (start sz b + r)) * src r else 0
  | [], o, _ => by simp [pairsOf]
  | v :: vs, o, h => by
    rw [List.nodup_cons] at h
    have hrest := pairsOf_sum hb q src vs (o + 1) h.2
    have hsplit : (∑ r ∈ range (sz.getD b 0),
        if start sz b + r ∈ v :: vs then q (o + (v :: vs).idxOf (start sz b + r)) * src r else 0) =
        (∑ r ∈ range (sz.getD b 0), if start sz b + r = v then q o * src r else 0) +
        ∑ r ∈ range (sz.getD b 0),
          if start sz b + r ∈ vs then q (o + 1 + vs.idxOf (start sz b + r)) * src r else 0 := by
      rw [← sum_add_distrib]
      refine sum_congr rfl fun r _ => ?_
      by_cases hv : start sz b + r = v
      · rw [hv]; simp [h.1]
      · rw [List.idxOf_cons_ne _ (Ne.symm hv)]
        simp only [List.mem_cons, hv, false_or, if_false, zero_add]
        split_ifs
        · rw [show o + 1 + vs.idxOf (start sz b + r) = o + (vs.idxOf (start sz b + r)).succ by omega]
        · rfl
    rw [hsplit, ← hrest]
    by_cases hv : InBlock sz b v
    · rw [pairsOf, if_pos hv, List.map_cons, List.sum_cons]
      congr 1
      rw [sum_eq_single (v - start sz b)]
      · rw [if_pos (by have := hv.2.1; omega)]
      · intro r _ hr
        rw [if_neg (by omega)]
      · intro hn
        exact absurd (mem_range.2 hv.sub_lt) hn
    · rw [pairsOf, if_neg hv]
      rw [sum_eq_zero, zero_add]
      intro r hr
      rw [if_neg]
      rintro rfl
      exact hv (inBlock_add hb (mem_range.1 hr))

/-- The loop over earlier blocks subtracts the product with the columns of block `b + 1`. -/
theorem residLoop_full {sz : List Nat} {sp : List (List Nat)} (P : Pattern sz sp) {w : Workspace}
    (W : WsOK sz sp w) {S : Store R} (G : Nat → Nat → Nat → R) (src y : Nat → R) {b : Nat}
    (hb : b + 1 < sz.length) (v : Nat) :
    (start sz (b + 1) ≤ v →
      residLoop' w S src (w.inter b) (w.sizes.length - 1) y v = y v) ∧
    (v < start sz (b + 1) →
      residLoop' w S src (w.inter b) (w.sizes.length - 1) y v = y v -
      ∑ r ∈ range (sz.getD (b + 1) 0),
        full sz sp G (fun b r c => S (.off b r c)) (start sz (b + 1) + r) v * src r) := by
  obtain ⟨d1, d2⟩ := interOf_desc sz b sp 0 [] List.Pairwise.nil (by simp)
  rw [W.inter b, W.sizes, residLoop_apply W S src _ _ y d1 (fun e he => by
    have := d2 e he
    have := P.len
    omega) v]
  by_cases hvN : v < sz.sum
  · obtain ⟨j, hj⟩ := exists_block sz hvN
    rw [interOf_sum S src hj b sp 0 []]
    rw [if_pos (by have := hj.1; have := P.len; omega)]
    simp only [List.map_nil, List.sum_nil, zero_add, Nat.sub_zero]
    rw [pairsOf_sum hb (fun c => S (.off j (v - start sz j) c)) src _ 0
      (SSorted.nodup (P.sep_sorted j))]
    simp only [zero_add]
    constructor
    · intro hle
      rw [sum_eq_zero, sub_zero]
      intro r hr
      rw [if_neg]
      intro hm
      have h1 := (P.sep_not_own hm).1
      have h2 := (inBlock_add hb (mem_range.1 hr)).2.2
      have : b + 1 ≤ j := by
        by_contra hcon
        have := start_mono sz (show j + 1 ≤ b + 1 by omega)
        have := hj.2.2
        omega
      have := start_mono sz (show b + 1 + 1 ≤ j + 1 by omega)
      omega
    · intro hlt
      congr 1
      refine sum_congr rfl fun r hr => ?_
      have hbl := inBlock_add hb (mem_range.1 hr)
      by_cases hm : start sz (b + 1) + r ∈ sp.getD j []
      · rw [if_pos hm, full_off P hm hj]
      · rw [if_neg hm, full_zero _ hm hj, zero_mul]
        intro h
        have := h.unique hbl
        subst this
        have := hj.2.1
        omega
  · have hz : ∀ e : Nat × List (Nat × Nat), interSum sz S src v e = 0 := by
      intro e
      unfold interSum
      rw [if_neg]
      intro h
      exact hvN h.lt_sum
    have hsum : ((interOf sz b sp 0 []).map (interSum sz S src v)).sum = 0 := by
      rw [List.map_congr_left (g := fun _ => (0 : R)) (fun e _ => hz e)]
      simp
    rw [hsum, sub_zero]
    exact ⟨fun _ => rfl, fun h => absurd (lt_of_lt_of_le h (start_le _ _)) hvN⟩

end Verif.Sup
