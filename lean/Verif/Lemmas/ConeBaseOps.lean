import Verif.Lemmas.ConeBase

/-!
# Lemmas about the operations of the class `coneBase` on symmetric matrices
-/

namespace Verif.ConeBase

open Verif.Matlab (numVar lowerUpper assign mirror SymRow)
open Spec
open scoped BigOperators

theorem assign_map {x : Nat → ℝ} (L : List Nat) (f : Nat → ℝ) (k : Nat) :
    assign x (L.map fun i => (i, f i)) k = if k ∈ L then f k else x k := by
  by_cases h : k ∈ L
  · rw [if_pos h]
    refine Matlab.assign_get _ _ ?_ (.inl ⟨(k, f k), List.mem_map.2 ⟨k, h, rfl⟩, rfl⟩)
    intro p hp e
    obtain ⟨i, hi, rfl⟩ := List.mem_map.1 hp
    simp only at e ⊢
    rw [e]
  · rw [if_neg h]
    refine Matlab.assign_other _ _ ?_
    intro p hp e
    obtain ⟨i, hi, rfl⟩ := List.mem_map.1 hp
    simp only at e
    exact h (e ▸ hi)

theorem assign_opp (K : Cone) {x : Nat → ℝ} (f : Nat → ℝ) {k : Nat} (h1 : 1 ≤ k) (h2 : k ≤ dim K) :
    assign x ((lowerTriIndx K).map fun i => (opp K i, f i)) k =
      if opp K k ∈ lowerTriIndx K then f (opp K k) else x k := by
  have inv : ∀ i ∈ lowerTriIndx K, opp K i = k → i = opp K k := by
    intro i hi e
    rw [← e, (opp_spec K (mem_fst hi).1 (mem_fst hi).2.1).2.2]
  by_cases h : opp K k ∈ lowerTriIndx K
  · rw [if_pos h]
    refine Matlab.assign_get _ _ ?_ (.inl ⟨(opp K (opp K k), f (opp K k)), List.mem_map.2 ⟨_, h, rfl⟩,
      (opp_spec K h1 h2).2.2⟩)
    intro p hp e
    obtain ⟨i, hi, rfl⟩ := List.mem_map.1 hp
    simp only at e ⊢
    rw [inv i hi e]
  · rw [if_neg h]
    refine Matlab.assign_other _ _ ?_
    intro p hp e
    obtain ⟨i, hi, rfl⟩ := List.mem_map.1 hp
    simp only at e
    exact h (inv i hi e ▸ hi)

theorem zip_map_self {α : Type} (L : List Nat) (f : Nat → α) : L.zip (L.map f) = L.map fun i => (i, f i) := by
  induction L with
  | nil => rfl
  | cons a l ih => simp [ih]

theorem zip_map_two {α : Type} (L : List Nat) (g : Nat → Nat) (f : Nat → α) :
    (L.map g).zip (L.map f) = L.map fun i => (g i, f i) := by
  induction L with
  | nil => rfl
  | cons a l ih => simp [ih]

theorem exists_fun {L : List Nat} (hL : L.Nodup) {vals : List ℝ} (h : vals.length = L.length) :
    ∃ g : Nat → ℝ, vals = L.map g := by
  refine ⟨fun i => vals.getD (L.idxOf i) 0, ?_⟩
  refine List.ext_getElem (by simpa using h) fun t h1 h2 => ?_
  have ht : t < L.length := by omega
  rw [List.getElem_map]
  have : L.idxOf L[t] = t := hL.idxOf_getElem t ht
  rw [this, List.getD_eq_getElem?_getD, List.getElem?_eq_getElem h1]
  rfl

theorem symmetrize_get (K : Cone) (x : Nat → ℝ) {k : Nat} (h1 : 1 ≤ k) (h2 : k ≤ dim K) :
    symmetrize K x k = (x k + x (opp K k)) / 2 := by
  unfold symmetrize
  rw [upper_map, List.zipWith_map_right, List.zipWith_self]
  rw [zip_map_self, zip_map_two]
  rw [assign_opp K (fun i => (x i + x (opp K i)) / 2) h1 h2, assign_map]
  simp only [(opp_spec K h1 h2).2.2]
  by_cases h : opp K k ∈ lowerTriIndx K
  · rw [if_pos h, add_comm]
  · rw [if_neg h, if_pos ((mem_or K h1 h2).resolve_right h)]

theorem mats_get (K : Cone) (g : Nat → ℝ) {k : Nat} (h1 : 1 ≤ k) (h2 : k ≤ dim K) :
    mats K ((lowerTriIndx K).map g) k = (if k ∈ lowerTriIndx K then g k / 2 else 0) +
      if opp K k ∈ lowerTriIndx K then g (opp K k) / 2 else 0 := by
  unfold mats
  rw [List.map_map, zip_map_self, upper_map, List.zipWith_map_left, List.zipWith_map_right, List.zipWith_self,
    zip_map_two]
  rw [assign_opp K _ h1 h2]
  simp only [assign_map, (opp_spec K h1 h2).2.2, Function.comp]
  by_cases h : opp K k ∈ lowerTriIndx K
  · rw [if_pos h, if_pos h]
    ring_nf
  · rw [if_neg h, if_neg h, add_zero]
    ring_nf

theorem init_get (K : Cone) (g : Nat → ℝ) {k : Nat} (h1 : 1 ≤ k) (h2 : k ≤ dim K) :
    initSymmetric K ((lowerTriIndx K).map g) k = if k ∈ lowerTriIndx K then g k else g (opp K k) := by
  unfold initSymmetric
  rw [zip_map_self, upper_map, zip_map_two, assign_opp K _ h1 h2, assign_map]
  by_cases h : opp K k ∈ lowerTriIndx K
  · rw [if_pos h]
    by_cases h' : k ∈ lowerTriIndx K
    · rw [if_pos h', diag_of_both h' h]
    · rw [if_neg h']
  · rw [if_neg h, if_pos ((mem_or K h1 h2).resolve_right h), if_pos ((mem_or K h1 h2).resolve_right h)]

theorem sum_list_finset {L : List Nat} (hL : L.Nodup) (f : Nat → ℝ) : (L.map f).sum = ∑ k ∈ L.toFinset, f k :=
  (List.sum_toFinset f hL).symm

theorem toFinset_sub (K : Cone) : (lowerTriIndx K).toFinset ⊆ Finset.Icc 1 (dim K) := by
  intro k hk
  have := mem_fst (List.mem_toFinset.1 hk)
  exact Finset.mem_Icc.2 ⟨this.1, this.2.1⟩

theorem sum_lower (K : Cone) (f : Nat → ℝ) :
    ∑ k ∈ Finset.Icc 1 (dim K), (if k ∈ lowerTriIndx K then f k else 0) = ((lowerTriIndx K).map f).sum := by
  rw [sum_list_finset (fst_nodup K), ← Finset.sum_filter]
  refine Finset.sum_congr ?_ fun _ _ => rfl
  ext k
  rw [Finset.mem_filter, List.mem_toFinset]
  exact ⟨fun h => h.2, fun h => ⟨toFinset_sub K (List.mem_toFinset.2 h), h⟩⟩

theorem sum_opp (K : Cone) (f : Nat → ℝ) :
    ∑ k ∈ Finset.Icc 1 (dim K), f (opp K k) = ∑ k ∈ Finset.Icc 1 (dim K), f k := by
  have hm : ∀ k ∈ Finset.Icc 1 (dim K), opp K k ∈ Finset.Icc 1 (dim K) ∧ opp K (opp K k) = k := by
    intro k hk
    have hk := Finset.mem_Icc.1 hk
    have := opp_spec K hk.1 hk.2
    exact ⟨Finset.mem_Icc.2 ⟨this.1, this.2.1⟩, this.2.2⟩
  exact Finset.sum_nbij' (opp K) (opp K) (fun k hk => (hm k hk).1) (fun k hk => (hm k hk).1)
    (fun k hk => (hm k hk).2) (fun k hk => (hm k hk).2) fun _ _ => rfl

theorem dot_map (L : List Nat) (f g : Nat → ℝ) : dot (L.map f) (L.map g) = (L.map fun k => f k * g k).sum := by
  unfold dot
  rw [List.zipWith_map_left, List.zipWith_map_right, List.zipWith_self]

theorem mats_adjoint (K : Cone) (g X : Nat → ℝ) (hX : ∀ k, 1 ≤ k → k ≤ dim K → X (opp K k) = X k) :
    inner K (mats K ((lowerTriIndx K).map g)) X = dot ((lowerTriIndx K).map g) (lowerTri K X) := by
  unfold inner lowerTri
  rw [dot_map, ← sum_lower]
  have e : ∀ k ∈ Finset.Icc 1 (dim K), mats K ((lowerTriIndx K).map g) k * X k =
      (if k ∈ lowerTriIndx K then g k * X k / 2 else 0) +
        if opp K k ∈ lowerTriIndx K then g (opp K k) * X (opp K k) / 2 else 0 := by
    intro k hk
    have hk := Finset.mem_Icc.1 hk
    rw [mats_get K g hk.1 hk.2, hX k hk.1 hk.2]
    split_ifs <;> ring
  rw [Finset.sum_congr rfl e, Finset.sum_add_distrib,
    sum_opp K fun k => if k ∈ lowerTriIndx K then g k * X k / 2 else 0, ← Finset.sum_add_distrib]
  refine Finset.sum_congr rfl fun k _ => ?_
  split_ifs <;> ring

/-! ### The diagonal -/

theorem mem_colon_diag {a n i : Nat} (ha : 1 ≤ a) : i ∈ colon a (n + 1) (a + n * n - 1) ↔ ∃ t < n, i = a + (t + n * t) := by
  unfold colon
  rcases Nat.eq_zero_or_pos n with rfl | hn
  · rw [if_neg (by omega)]
    simp
  · have hnn : 0 < n * n := Nat.mul_pos hn hn
    have hq : (a + n * n - 1 - a) / (n + 1) + 1 = n := by
      obtain ⟨m, rfl⟩ : ∃ m, n = m + 1 := ⟨n - 1, by omega⟩
      have : a + (m + 1) * (m + 1) - 1 - a = m * (m + 1 + 1) := by
        have : (m + 1) * (m + 1) = m * (m + 1 + 1) + 1 := by ring
        omega
      rw [this, Nat.mul_div_cancel _ (by omega)]
    rw [if_pos (by omega), hq]
    simp only [List.mem_map, List.mem_range]
    constructor
    · rintro ⟨t, ht, rfl⟩
      exact ⟨t, ht, by ring⟩
    · rintro ⟨t, ht, rfl⟩
      exact ⟨t, ht, by ring⟩

theorem mem_diag_aux : ∀ (s : List Nat) (off i : Nat),
    i ∈ (List.zipWith (fun (ae : Nat × Nat) n => colon ae.1 (n + 1) ae.2)
      ((startsFrom off (s.map fun n => n * n)).zip
        (List.zipWith (fun a n => a + n * n - 1) (startsFrom off (s.map fun n => n * n)) s)) s).flatten ↔
      off + 1 ≤ i ∧ i < off + 1 + numVar s ∧ mirror s (off + 1) i = i := by
  intro s
  induction s with
  | nil =>
    intro off i
    simp [startsFrom, numVar]
    intros
    omega
  | cons n ns ih =>
    intro off i
    have := ih (off + n * n) i
    simp only [List.map_cons, startsFrom, List.zipWith_cons_cons, List.zip_cons_cons, List.flatten_cons,
      List.mem_append, numVar] at this ⊢
    rw [this, mem_colon_diag (by omega)]
    by_cases hk : i < off + 1 + n * n
    · simp only [mirror, if_pos hk]
      constructor
      · rintro (⟨t, ht, rfl⟩ | h)
        · have hb := Matlab.pos_bounds (off := off + 1) ht ht
          have f1 := Matlab.pos_mod (off := off + 1) (j := t) ht
          have f2 := Matlab.pos_div (off := off + 1) (j := t) ht
          unfold Matlab.pos at hb f1 f2 ⊢
          rw [f1, f2]
          exact ⟨by omega, by omega, rfl⟩
        · omega
      · rintro ⟨h1, h2, h3⟩
        left
        obtain ⟨e1, e2, e3⟩ := Matlab.pos_of h1 hk
        have := h3.trans e3.symm
        obtain ⟨d1, d2⟩ := Matlab.pos_inj e2 e1 this
        rw [d1] at e3
        exact ⟨_, e1, e3.symm⟩
    · simp only [mirror, if_neg hk]
      rw [show off + n * n + 1 = off + 1 + n * n by omega]
      constructor
      · rintro (⟨t, ht, rfl⟩ | h)
        · have hb := Matlab.pos_bounds (off := off + 1) ht ht
          unfold Matlab.pos at hb
          omega
        · exact ⟨by omega, by omega, h.2.2⟩
      · rintro ⟨h1, h2, h3⟩
        exact .inr ⟨by omega, by omega, h3⟩

theorem mem_diag (K : Cone) (i : Nat) :
    i ∈ (indxDiag K).flatten ↔ before K + 1 ≤ i ∧ i ≤ dim K ∧ opp K i = i := by
  have hd := dim_eq K
  unfold indxDiag
  by_cases h : anyPos K.s = true
  · unfold endS startS
    rw [if_pos h, mem_diag_aux K.s (offsetS K) i, offsetS_eq]
    unfold opp
    constructor
    · rintro ⟨h1, h2, h3⟩
      rw [if_neg (by omega)]
      exact ⟨h1, by omega, h3⟩
    · rintro ⟨h1, h2, h3⟩
      rw [if_neg (by omega)] at h3
      exact ⟨h1, by omega, h3⟩
  · have h0 := anyPos_false (by simpa using h)
    have : startS K = [] := by unfold startS; rw [if_neg h]
    rw [this]
    have hz : numVar K.s = 0 := by
      rw [numVar_eq]
      exact List.sum_eq_zero fun n hn => by
        obtain ⟨m, hm, rfl⟩ := List.mem_map.1 hn
        simp [h0 m hm]
    simp
    intros
    omega

theorem diag_head_aux : ∀ (s : List Nat) (off : Nat), anyPos s = true →
    ((List.zipWith (fun (ae : Nat × Nat) n => colon ae.1 (n + 1) ae.2)
      ((startsFrom off (s.map fun n => n * n)).zip
        (List.zipWith (fun a n => a + n * n - 1) (startsFrom off (s.map fun n => n * n)) s)) s).flatten).headD 0 =
      off + 1 := by
  intro s
  induction s with
  | nil => intro off h; simp [anyPos] at h
  | cons n ns ih =>
    intro off h
    simp only [List.map_cons, startsFrom, List.zipWith_cons_cons, List.zip_cons_cons, List.flatten_cons]
    rcases Nat.eq_zero_or_pos n with rfl | hn
    · have h' : anyPos ns = true := by simpa [anyPos] using h
      have := ih (off + 0 * 0) h'
      rw [show colon (off + 1) (0 + 1) (off + 1 + 0 * 0 - 1) = [] by unfold colon; rw [if_neg (by omega)],
        List.nil_append, this]
    · have hnn : 0 < n * n := Nat.mul_pos hn hn
      unfold colon
      rw [if_pos (by omega), List.range_succ_eq_map]
      simp

theorem diag_head {K : Cone} (h : anyPos K.s = true) : (indxDiag K).flatten.headD 0 = before K + 1 := by
  unfold indxDiag endS startS
  rw [if_pos h]
  exact diag_head_aux K.s (offsetS K) h

theorem desym_get {K : Cone} (hs : 0 < K.s.sum) (x : Nat → ℝ) (k : Nat) :
    desymmetrize K x k = if k ∈ lowerTriIndx K then (if opp K k = k then x k else 2 * x k) else 0 := by
  have ha := (anyPos_iff K.s).2 hs
  unfold desymmetrize lowerTri
  rw [if_pos hs]
  rw [zip_map_self, assign_map]
  by_cases h : k ∈ lowerTriIndx K
  · rw [if_pos h, if_pos h, assign_map, diag_head ha]
    have hk := mem_fst h
    simp only [assign_map, List.mem_filter, decide_eq_true_eq]
    by_cases hb : k ≤ before K
    · have ho : opp K k = k := by unfold opp; rw [if_pos hb]
      have hd : k ∉ (indxDiag K).flatten := by
        rw [mem_diag]
        omega
      rw [if_neg (by omega), if_neg hd, if_pos ho]
    · rw [if_pos ⟨h, by omega⟩]
      by_cases ho : opp K k = k
      · rw [if_pos ((mem_diag K k).2 ⟨by omega, hk.2.1, ho⟩), if_pos ho]
        ring
      · rw [if_neg (fun hd => ho ((mem_diag K k).1 hd).2.2), if_neg ho]
        ring
  · rw [if_neg h, if_neg h]

theorem desym_inner {K : Cone} (hs : 0 < K.s.sum) (x X : Nat → ℝ)
    (hx : ∀ k, 1 ≤ k → k ≤ dim K → x (opp K k) = x k) (hX : ∀ k, 1 ≤ k → k ≤ dim K → X (opp K k) = X k) :
    inner K (desymmetrize K x) X = inner K x X := by
  unfold inner
  have e : ∀ k ∈ Finset.Icc 1 (dim K), x k * X k =
      (if k ∈ lowerTriIndx K then (if opp K k = k then x k * X k / 2 else x k * X k) else 0) +
        (if opp K k ∈ lowerTriIndx K then (if opp K (opp K k) = opp K k then x (opp K k) * X (opp K k) / 2
          else x (opp K k) * X (opp K k)) else 0) := by
    intro k hk
    have hk := Finset.mem_Icc.1 hk
    rw [hx k hk.1 hk.2, hX k hk.1 hk.2, (opp_spec K hk.1 hk.2).2.2]
    by_cases ho : opp K k = k
    · have hl : k ∈ lowerTriIndx K := by
        rcases mem_or K hk.1 hk.2 with h | h
        · exact h
        · rwa [ho] at h
      rw [ho, if_pos hl, if_pos rfl]
      ring
    · have ho' : ¬ k = opp K k := fun h => ho h.symm
      rcases mem_or K hk.1 hk.2 with h | h
      · rw [if_pos h, if_neg ho, if_neg fun h' => ho (diag_of_both h h')]
        ring
      · have hn : k ∉ lowerTriIndx K := fun h' => ho (diag_of_both h' h)
        rw [if_neg hn, if_pos h, if_neg ho']
        ring
  rw [Finset.sum_congr rfl e, Finset.sum_add_distrib,
    sum_opp K fun k => if k ∈ lowerTriIndx K then (if opp K k = k then x k * X k / 2 else x k * X k) else 0,
    ← Finset.sum_add_distrib]
  refine Finset.sum_congr rfl fun k _ => ?_
  rw [desym_get hs]
  split_ifs <;> ring

end Verif.ConeBase
