import Verif.Lemmas.ConeBaseOps
import Verif.Lemmas.Solve
import Mathlib.Analysis.Matrix.Order

/-!
# Lemmas about nonnegative entries and `FindMustVanish`
-/

namespace Verif.ConeBase

open Verif.Matlab (numVar lowerUpper assign mirror SymRow)
open Spec
open scoped BigOperators

/-! ### Nonnegative entries -/

theorem lorentz_start : ∀ (q : List Nat) (off : Nat) (x : Nat → ℝ), (∀ n ∈ q, 0 < n) → Lorentz q (off + 1) x →
    ∀ a ∈ startsFrom off q, 0 ≤ x a := by
  intro q
  induction q with
  | nil => intro off x _ _ a ha; simp [startsFrom] at ha
  | cons n ns ih =>
    intro off x hn h a ha
    simp only [startsFrom, List.mem_cons] at ha
    simp only [Lorentz] at h
    rcases ha with rfl | ha
    · exact (h.1 (hn n (by simp))).1
    · refine ih (off + n) x (fun m hm => hn m (by simp [hm])) ?_ a ha
      have := h.2
      rwa [show off + 1 + n = off + n + 1 by omega] at this

theorem rotated_start : ∀ (q : List Nat) (off : Nat) (x : Nat → ℝ), (∀ n ∈ q, 0 < n) → Rotated q (off + 1) x →
    ∀ a ∈ startsFrom off q, 0 ≤ x a ∧ 0 ≤ x (a + 1) := by
  intro q
  induction q with
  | nil => intro off x _ _ a ha; simp [startsFrom] at ha
  | cons n ns ih =>
    intro off x hn h a ha
    simp only [startsFrom, List.mem_cons] at ha
    simp only [Rotated] at h
    rcases ha with rfl | ha
    · exact ⟨(h.1 (hn n (by simp))).1, (h.1 (hn n (by simp))).2.1⟩
    · refine ih (off + n) x (fun m hm => hn m (by simp [hm])) ?_ a ha
      have := h.2
      rwa [show off + 1 + n = off + n + 1 by omega] at this

theorem cone_diag : ∀ (s : List Nat) (a : Nat) (x : Nat → ℝ), Matlab.Spec.Cone s a x →
    ∀ i, a ≤ i → i < a + numVar s → mirror s a i = i → 0 ≤ x i := by
  intro s
  induction s with
  | nil => intro a x _ i h1 h2; simp only [numVar] at h2; omega
  | cons n ns ih =>
    intro a x h i h1 h2 h3
    simp only [Matlab.Spec.Cone] at h
    simp only [numVar] at h2
    by_cases hk : i < a + n * n
    · simp only [mirror, if_pos hk] at h3
      obtain ⟨e1, e2, e3⟩ := Matlab.pos_of h1 hk
      obtain ⟨d1, d2⟩ := Matlab.pos_inj e2 e1 (h3.trans e3.symm)
      have := h.1.diag_nonneg (i := ⟨_, e1⟩)
      simp only [Matrix.of_apply] at this
      rw [d1] at e3
      unfold Matlab.pos at e3
      rwa [e3] at this
    · simp only [mirror, if_neg hk] at h3
      exact ih _ x h.2 i (by omega) (by omega) h3

theorem onDiagonal_iff_aux : ∀ (s : List Nat) (a k : Nat),
    OnDiagonal s a k ↔ a ≤ k ∧ k < a + numVar s ∧ mirror s a k = k := by
  intro s
  induction s with
  | nil => intro a k; simp only [OnDiagonal, numVar, false_iff]; omega
  | cons n ns ih =>
    intro a k
    simp only [OnDiagonal, ih, numVar]
    by_cases hk : k < a + n * n
    · simp only [mirror, if_pos hk]
      constructor
      · rintro (⟨t, ht, rfl⟩ | h)
        · have hb := Matlab.pos_bounds (off := a) ht ht
          have f1 := Matlab.pos_mod (off := a) (j := t) ht
          have f2 := Matlab.pos_div (off := a) (j := t) ht
          unfold Matlab.pos at hb f1 f2 ⊢
          rw [f1, f2]
          exact ⟨by omega, by omega, rfl⟩
        · omega
      · rintro ⟨h1, h2, h3⟩
        left
        obtain ⟨e1, e2, e3⟩ := Matlab.pos_of h1 hk
        obtain ⟨d1, d2⟩ := Matlab.pos_inj e2 e1 (h3.trans e3.symm)
        rw [d1] at e3
        exact ⟨_, e1, e3.symm⟩
    · simp only [mirror, if_neg hk]
      constructor
      · rintro (⟨t, ht, rfl⟩ | h)
        · have hb := Matlab.pos_bounds (off := a) ht ht
          unfold Matlab.pos at hb
          omega
        · exact ⟨by omega, by omega, h.2.2⟩
      · rintro ⟨h1, h2, h3⟩
        exact .inr ⟨by omega, by omega, h3⟩

theorem mem_diag_iff (K : Cone) (k : Nat) : k ∈ (indxDiag K).flatten ↔ OnDiagonal K.s (before K + 1) k := by
  have hd := dim_eq K
  rw [mem_diag, onDiagonal_iff_aux]
  unfold opp
  constructor
  · rintro ⟨h1, h2, h3⟩
    rw [if_neg (by omega)] at h3
    exact ⟨h1, by omega, h3⟩
  · rintro ⟨h1, h2, h3⟩
    rw [if_neg (by omega)]
    exact ⟨h1, by omega, h3⟩

theorem nonneg_entries {K : Cone} (hq : (∀ n ∈ K.q, n = 0) ∨ ∀ n ∈ K.q, 0 < n)
    (hr : (∀ n ∈ K.r, n = 0) ∨ ∀ n ∈ K.r, 0 < n) {x : Nat → ℝ} (hx : InCone K x) :
    ∀ i ∈ indxNNeg K, 0 ≤ x i := by
  intro i hi
  have hR : ∀ a ∈ startR K, 0 ≤ x a ∧ 0 ≤ x (a + 1) := by
    intro a ha
    unfold startR at ha
    by_cases h : anyPos K.r = true
    · rw [if_pos h] at ha
      obtain ⟨n, hn, h0⟩ := anyPos_true h
      refine rotated_start K.r _ x (hr.resolve_left fun hz => h0 (hz n hn)) hx.rotated a ha
    · rw [if_neg h] at ha
      simp at ha
  simp only [indxNNeg, List.mem_append, List.mem_map] at hi
  rcases hi with (((hi | hi) | hi) | ⟨a, ha, rfl⟩) | hi
  · unfold rangeL endL startL at hi
    by_cases h : K.l = 0
    · simp [h] at hi
    · simp only [if_neg h, List.map_cons, List.map_nil, List.zipWith_cons_cons, List.zipWith_nil_left,
        List.flatten_cons, List.flatten_nil, List.append_nil, colon_one] at hi
      have := List.mem_range'_1.1 hi
      exact hx.nonneg i (by omega) (by omega)
  · unfold startQ at hi
    by_cases h : anyPos K.q = true
    · rw [if_pos h] at hi
      obtain ⟨n, hn, h0⟩ := anyPos_true h
      exact lorentz_start K.q _ x (hq.resolve_left fun hz => h0 (hz n hn)) hx.lorentz i hi
    · rw [if_neg h] at hi
      simp at hi
  · exact (hR i hi).1
  · exact (hR a ha).2
  · rw [mem_diag_iff, onDiagonal_iff_aux] at hi
    exact cone_diag _ _ x hx.psd i hi.1 hi.2.1 hi.2.2

theorem startsFrom_ne {off : Nat} {l : List Nat} (h : anyPos l = true) : startsFrom off l ≠ [] := by
  obtain ⟨n, hn, -⟩ := anyPos_true h
  intro he
  have := congrArg List.length he
  rw [startsFrom_length] at this
  simp at this
  rw [this] at hn
  simp at hn

theorem any_conic (K : Cone) : anyConicVars K = true ↔ 0 < K.l + K.q.sum + K.r.sum + K.s.sum := by
  unfold anyConicVars
  rw [decide_eq_true_eq, List.length_pos_iff]
  constructor
  · intro h
    by_contra hc
    apply h
    have hl : K.l = 0 := by omega
    have hq : ¬ anyPos K.q = true := fun h => by have := (anyPos_iff _).1 h; omega
    have hr : ¬ anyPos K.r = true := fun h => by have := (anyPos_iff _).1 h; omega
    have hs : ¬ anyPos K.s = true := fun h => by have := (anyPos_iff _).1 h; omega
    simp [indxNNeg, rangeL, startL, endL, startQ, startR, indxDiag, startS, hl, hq, hr, hs]
  · intro h he
    simp only [indxNNeg, List.append_eq_nil_iff] at he
    obtain ⟨⟨⟨⟨e1, e2⟩, e3⟩, -⟩, e5⟩ := he
    have hl : K.l = 0 := by
      by_contra hl
      unfold rangeL endL startL at e1
      simp only [if_neg hl, List.map_cons, List.map_nil, List.zipWith_cons_cons, List.zipWith_nil_left,
        List.flatten_cons, List.flatten_nil, List.append_nil, colon_one] at e1
      have := congrArg List.length e1
      simp at this
      omega
    have hq : ¬ anyPos K.q = true := by
      intro h
      unfold startQ at e2
      rw [if_pos h] at e2
      exact startsFrom_ne h e2
    have hr : ¬ anyPos K.r = true := by
      intro h
      unfold startR at e3
      rw [if_pos h] at e3
      exact startsFrom_ne h e3
    have hs : ¬ anyPos K.s = true := by
      intro h
      have := diag_head h
      rw [e5] at this
      simp at this
    rw [anyPos_iff] at hq hr hs
    omega

/-! ### The last index before the semidefinite cones -/

theorem foldl_max (l : List Nat) : ∀ m, l.foldl max m = max m (l.foldl max 0) := by
  induction l with
  | nil => intro m; simp
  | cons a l ih =>
    intro m
    simp only [List.foldl_cons]
    rw [ih (max m a), ih (max 0 a)]
    omega

theorem foldl_max_eq {l : List Nat} {b : Nat} (h1 : b ∈ l) (h2 : ∀ a ∈ l, a ≤ b) : l.foldl max 0 = b := by
  have hle : ∀ (l : List Nat), (∀ a ∈ l, a ≤ b) → l.foldl max 0 ≤ b := by
    intro l
    induction l with
    | nil => intro _; simp
    | cons a l ih =>
      intro h
      simp only [List.foldl_cons]
      rw [foldl_max]
      have := h a (by simp)
      have := ih fun c hc => h c (by simp [hc])
      omega
  have hge : ∀ (l : List Nat), b ∈ l → b ≤ l.foldl max 0 := by
    intro l
    induction l with
    | nil => intro h; simp at h
    | cons a l ih =>
      intro h
      simp only [List.foldl_cons]
      rw [foldl_max]
      rcases List.mem_cons.1 h with rfl | h
      · omega
      · have := ih h
        omega
  exact le_antisymm (hle l h2) (hge l h1)

theorem ends_le : ∀ (l : List Nat) (off : Nat),
    ∀ e ∈ List.zipWith (fun a n => a + n - 1) (startsFrom off l) l, e ≤ off + l.sum := by
  intro l
  induction l with
  | nil => intro off e he; simp [startsFrom] at he
  | cons n ns ih =>
    intro off e he
    simp only [startsFrom, List.zipWith_cons_cons, List.mem_cons] at he
    rw [List.sum_cons]
    rcases he with rfl | he
    · omega
    · have := ih _ e he
      omega

theorem ends_last : ∀ (l : List Nat) (off : Nat), l ≠ [] →
    off + l.sum ∈ List.zipWith (fun a n => a + n - 1) (startsFrom off l) l := by
  intro l
  induction l with
  | nil => intro off h; exact absurd rfl h
  | cons n ns ih =>
    intro off _
    simp only [startsFrom, List.zipWith_cons_cons, List.mem_cons, List.sum_cons]
    by_cases h : ns = []
    · subst h
      left
      simp
    · right
      have := ih (off + n) h
      rwa [Nat.add_assoc] at this

theorem flqr_end (K : Cone) : flqrEnd K = before K := by
  have hF : ∀ e ∈ endF K, e ≤ K.f := by
    intro e he
    unfold endF startF at he
    by_cases h : K.f = 0
    · simp [h] at he
    · simp [h] at he
      omega
  have hL : ∀ e ∈ endL K, e ≤ K.f + K.l := by
    intro e he
    unfold endL startL at he
    by_cases h : K.l = 0
    · simp [h] at he
    · simp [h] at he
      omega
  have hQ : ∀ e ∈ endQ K, e ≤ K.f + K.l + K.q.sum := by
    intro e he
    unfold endQ startQ at he
    by_cases h : anyPos K.q = true
    · rw [if_pos h] at he
      exact ends_le _ _ e he
    · simp [h] at he
  have hR : ∀ e ∈ endR K, e ≤ K.f + K.l + K.q.sum + K.r.sum := by
    intro e he
    unfold endR startR at he
    by_cases h : anyPos K.r = true
    · rw [if_pos h] at he
      exact ends_le _ _ e he
    · simp [h] at he
  unfold flqrEnd
  refine foldl_max_eq ?_ ?_
  · simp only [List.mem_append, List.mem_singleton]
    have ne : ∀ {l : List Nat}, anyPos l = true → l ≠ [] := by
      intro l h he
      rw [he] at h
      simp [anyPos] at h
    by_cases hr : anyPos K.r = true
    · left; left; right
      unfold endR startR
      rw [if_pos hr]
      exact ends_last _ _ (ne hr)
    · have r0 := sum_zero (anyPos_false (by simpa using hr))
      by_cases hq : anyPos K.q = true
      · left; right
        unfold endQ startQ before
        rw [if_pos hq, r0]
        exact ends_last _ _ (ne hq)
      · have q0 := sum_zero (anyPos_false (by simpa using hq))
        unfold before
        rw [r0, q0]
        by_cases hl : K.l = 0
        · rw [hl]
          by_cases hf : K.f = 0
          · right; omega
          · left; left; left; left
            simp [endF, startF, hf]
        · left; left; left; right
          simp [endL, startL, hl]
  · intro a ha
    simp only [List.mem_append, List.mem_singleton] at ha
    unfold before
    rcases ha with (((h | h) | h) | h) | h
    · have := hF a h; omega
    · have := hL a h; omega
    · have := hR a h; omega
    · have := hQ a h; omega
    · omega

/-! ### `FindMustVanish` -/

theorem mem_uniq {l : List Nat} {a : Nat} : a ∈ uniq l ↔ a ∈ l := by
  unfold uniq
  rw [List.mem_dedup, List.mem_insertionSort]

theorem startsFrom_get : ∀ (l : List Nat) (off t : Nat), t < l.length →
    (startsFrom off l).getD t 0 = off + (l.take t).sum + 1 := by
  intro l
  induction l with
  | nil => intro off t h; simp at h
  | cons n ns ih =>
    intro off t h
    cases t with
    | zero => simp [startsFrom]
    | succ t =>
      simp only [startsFrom, List.getD_cons_succ, List.take_succ_cons, List.sum_cons]
      rw [ih _ t (by simpa using h)]
      omega

theorem zipWith_getD (f : Nat → Nat → Nat) (l m : List Nat) (t : Nat) (h1 : t < l.length) (h2 : t < m.length) :
    (List.zipWith f l m).getD t 0 = f (l.getD t 0) (m.getD t 0) := by
  simp [List.getD_eq_getElem?_getD, h1, h2]

theorem cone_block : ∀ (s : List Nat) (a : Nat) (x : Nat → ℝ), Matlab.Spec.Cone s a x → ∀ b, b < s.length →
    (Matrix.of fun i j : Fin (s.getD b 0) =>
      x (a + ((s.take b).map fun n => n * n).sum + (i + s.getD b 0 * j))).PosSemidef := by
  intro s
  induction s with
  | nil => intro a x _ b hb; simp at hb
  | cons n ns ih =>
    intro a x h b hb
    cases b with
    | zero =>
      have := h.1
      simp only [List.take_zero, List.map_nil, List.sum_nil, Nat.add_zero]
      exact this
    | succ b =>
      have := ih _ x h.2 b (by simpa using hb)
      simp only [List.getD_cons_succ, List.take_succ_cons, List.map_cons, List.sum_cons]
      rwa [← Nat.add_assoc]

theorem rotated_block : ∀ (r : List Nat) (a : Nat) (x : Nat → ℝ), Rotated r a x → ∀ b, b < r.length →
    0 < r.getD b 0 → ∑ k ∈ Finset.Ico (a + (r.take b).sum + 2) (a + (r.take b).sum + r.getD b 0), x k ^ 2 ≤
      2 * x (a + (r.take b).sum) * x (a + (r.take b).sum + 1) := by
  intro r
  induction r with
  | nil => intro a x _ b hb; simp at hb
  | cons n ns ih =>
    intro a x h b hb h0
    cases b with
    | zero => simpa using (h.1 (by simpa using h0)).2.2
    | succ b =>
      have := ih _ x h.2 b (by simpa using hb) (by simpa using h0)
      simp only [List.getD_cons_succ, List.take_succ_cons, List.sum_cons]
      rwa [← Nat.add_assoc]

theorem psd_zero_row {n : Nat} {M : Matrix (Fin n) (Fin n) ℝ} (hM : M.PosSemidef) {t : Fin n} (h : M t t = 0)
    (k : Fin n) : M k t = 0 ∧ M t k = 0 := by
  have h1 : M.mulVec (Pi.single t 1) = 0 := by
    rw [← hM.dotProduct_mulVec_zero_iff]
    simp [Matrix.mulVec_single, h]
  have h2 : M k t = 0 := by
    have := congrFun h1 k
    simpa [Matrix.mulVec_single] using this
  refine ⟨h2, ?_⟩
  have := hM.1.apply t k
  simp only [star_trivial] at this
  rw [← this, h2]

theorem foldl_succ (l : List Nat) : ∀ m, l.foldl (fun m t => max m (t + 1)) m =
    max m (l.foldl (fun m t => max m (t + 1)) 0) := by
  induction l with
  | nil => intro m; simp
  | cons a l ih =>
    intro m
    simp only [List.foldl_cons]
    rw [ih (max m (a + 1)), ih (max 0 (a + 1))]
    omega

theorem foldl_succ_eq (l : List Nat) : l.foldl (fun m t => max m (t + 1)) 0 = (l.map (· + 1)).foldl max 0 := by
  rw [List.foldl_map]

theorem lastLinear_eq {starts i : List Nat} {b : Nat} (hb : b < i.length * starts.length)
    (h1 : starts.getD (b / i.length) 0 ≤ i.getD (b % i.length) 0)
    (h2 : ∀ t, b < t → t < i.length * starts.length → i.getD (t % i.length) 0 < starts.getD (t / i.length) 0) :
    lastLinear starts i = b + 1 := by
  unfold lastLinear
  rw [foldl_succ_eq]
  refine foldl_max_eq (List.mem_map.2 ⟨b, ?_, rfl⟩) ?_
  · rw [List.mem_filter, List.mem_range, decide_eq_true_eq]
    exact ⟨hb, h1⟩
  · intro a ha
    obtain ⟨t, ht, rfl⟩ := List.mem_map.1 ha
    rw [List.mem_filter, List.mem_range, decide_eq_true_eq] at ht
    by_contra hc
    have := h2 t (by omega) ht.1
    omega

theorem lastLinear_le {starts i : List Nat} : lastLinear starts i ≤ i.length * starts.length := by
  unfold lastLinear
  rw [foldl_succ_eq]
  have : ∀ (l : List Nat) (b : Nat), (∀ a ∈ l, a ≤ b) → l.foldl max 0 ≤ b := by
    intro l b
    induction l with
    | nil => intro _; simp
    | cons a l ih =>
      intro h
      simp only [List.foldl_cons]
      rw [foldl_max]
      have := h a (by simp)
      have := ih fun c hc => h c (by simp [hc])
      omega
  refine this _ _ fun a ha => ?_
  obtain ⟨t, ht, rfl⟩ := List.mem_map.1 ha
  rw [List.mem_filter, List.mem_range] at ht
  omega

theorem sum_take_le (l : List Nat) {t b : Nat} (h : b < t) (hb : b < l.length) :
    (l.take b).sum + l.getD b 0 ≤ (l.take t).sum := by
  have e : (l.take (b + 1)).sum = (l.take b).sum + l.getD b 0 := by
    rw [List.take_succ, List.sum_append, List.getD_eq_getElem?_getD, List.getElem?_eq_getElem hb]
    simp
  rw [← e]
  have : l.take t = l.take (b + 1) ++ (l.take t).drop (b + 1) := by
    conv_lhs => rw [← List.take_append_drop (b + 1) (l.take t)]
    rw [List.take_take, Nat.min_eq_left (by omega)]
  rw [this, List.sum_append]
  omega

/-- The block of an entry on the diagonal. -/
theorem diag_block : ∀ (s : List Nat) (a d : Nat), OnDiagonal s a d → ∃ b t, b < s.length ∧ t < s.getD b 0 ∧
    d = a + ((s.take b).map fun n => n * n).sum + (t + s.getD b 0 * t) := by
  intro s
  induction s with
  | nil => intro a d h; exact h.elim
  | cons n ns ih =>
    intro a d h
    rcases h with ⟨t, ht, rfl⟩ | h
    · exact ⟨0, t, by simp, by simpa using ht, by simp⟩
    · obtain ⟨b, t, hb, ht, e⟩ := ih _ _ h
      refine ⟨b + 1, t, by simpa using hb, by simpa using ht, ?_⟩
      simp only [List.getD_cons_succ, List.take_succ_cons, List.map_cons, List.sum_cons]
      omega

theorem onDiagonal_block : ∀ (s : List Nat) (a b t : Nat), b < s.length → t < s.getD b 0 →
    OnDiagonal s a (a + ((s.take b).map fun n => n * n).sum + (t + s.getD b 0 * t)) := by
  intro s
  induction s with
  | nil => intro a b t hb; simp at hb
  | cons n ns ih =>
    intro a b t hb ht
    cases b with
    | zero => exact .inl ⟨t, by simpa using ht, by simp⟩
    | succ b =>
      right
      have := ih (a + n * n) b t (by simpa using hb) (by simpa using ht)
      simp only [List.getD_cons_succ, List.take_succ_cons, List.map_cons, List.sum_cons]
      rwa [← Nat.add_assoc a]

theorem lastLinear_block {K : Cone} (hs : anyPos K.s = true) {b t : Nat} (hb : b < K.s.length) (ht : t < K.s.getD b 0) :
    lastLinear (startS K) [before K + 1 + ((K.s.take b).map fun n => n * n).sum + (t + K.s.getD b 0 * t)] = b + 1 := by
  have hlen : (startS K).length = K.s.length := by
    unfold startS
    rw [if_pos hs, startsFrom_length, List.length_map]
  have hget : ∀ t, t < K.s.length → (startS K).getD t 0 = before K + ((K.s.take t).map fun n => n * n).sum + 1 := by
    intro t h
    unfold startS
    rw [if_pos hs, startsFrom_get _ _ _ (by simpa using h), ← List.map_take]
    rfl
  have hlt := (Matlab.pos_bounds (off := 0) ht ht)
  unfold Matlab.pos at hlt
  refine lastLinear_eq (by simpa [hlen] using hb) ?_ ?_
  · simp only [List.length_singleton, Nat.div_one, Nat.mod_one, List.getD_cons_zero]
    rw [hget b hb]
    omega
  · intro u hu hu'
    simp only [List.length_singleton, Nat.div_one, Nat.mod_one, List.getD_cons_zero, Nat.one_mul] at hu' ⊢
    rw [hget u (by omega)]
    have := sum_take_le (K.s.map fun n => n * n) hu (by simpa using hb)
    rw [← List.map_take, ← List.map_take] at this
    have e : (K.s.map fun n => n * n).getD b 0 = K.s.getD b 0 * K.s.getD b 0 := by
      simp [List.getD_eq_getElem?_getD, hb]
    rw [e] at this
    omega

theorem mem_colonInt_one {a b i : Int} : i ∈ colonInt a 1 b ↔ a ≤ i ∧ i ≤ b := by
  unfold colonInt
  by_cases h : a ≤ b
  · rw [if_pos h]
    simp only [List.mem_map, List.mem_range, Int.ediv_one, one_mul]
    constructor
    · rintro ⟨k, hk, rfl⟩
      omega
    · rintro ⟨h1, h2⟩
      exact ⟨(i - a).toNat, by omega, by omega⟩
  · rw [if_neg h]
    simp only [List.not_mem_nil, false_iff]
    omega

theorem mem_colonInt_row {n t : Nat} (ht : t < n) {i : Int} :
    i ∈ colonInt ((t : Int) + 1) n ((n : Int) * n) ↔ ∃ k < n, i = ((t + 1 + n * k : Nat) : Int) := by
  have hn : (0 : Int) < n := by omega
  have hle : (t : Int) + 1 ≤ (n : Int) * n := by nlinarith
  have hq : ((n : Int) * n - ((t : Int) + 1)) / n = n - 1 := by
    have : (n : Int) * n - ((t : Int) + 1) = (n - t - 1) + (n - 1) * n := by ring
    rw [this, Int.add_mul_ediv_right _ _ (by omega), Int.ediv_eq_zero_of_lt (by omega) (by omega)]
    omega
  unfold colonInt
  rw [if_pos hle, hq]
  simp only [List.mem_map, List.mem_range]
  constructor
  · rintro ⟨k, hk, rfl⟩
    exact ⟨k, by omega, by push_cast; ring⟩
  · rintro ⟨k, hk, rfl⟩
    exact ⟨k, by omega, by push_cast; ring⟩

/-- The entries of the row and the column of `t`. -/
theorem mem_rc {n t : Nat} (ht : t < n) (o : Nat) (i : Int) :
    i ∈ (colonInt ((n : Int) * (((t : Int) + 1) - 1) + 1) 1 ((n : Int) * (((t : Int) + 1) - 1) + 1 + n - 1) ++
        colonInt ((t : Int) + 1) n ((n : Int) * n)).map (· + (o : Int)) ↔
      ∃ k < n, i = ((o + 1 + (k + n * t) : Nat) : Int) ∨ i = ((o + 1 + (t + n * k) : Nat) : Int) := by
  simp only [List.mem_map, List.mem_append, mem_colonInt_one, mem_colonInt_row ht]
  constructor
  · rintro ⟨u, (⟨h1, h2⟩ | ⟨k, hk, rfl⟩), rfl⟩
    · refine ⟨(u - n * t - 1).toNat, ?_, .inl ?_⟩
      · have : (n : Int) * ((t : Int) + 1 - 1) = n * t := by ring
        rw [this] at h1 h2
        omega
      · have : (n : Int) * ((t : Int) + 1 - 1) = n * t := by ring
        rw [this] at h1 h2
        push_cast
        rw [Int.toNat_of_nonneg (by omega)]
        ring
    · refine ⟨k, hk, .inr ?_⟩
      push_cast
      ring
  · rintro ⟨k, hk, (rfl | rfl)⟩
    · refine ⟨((n * t + 1 + k : Nat) : Int), .inl ?_, ?_⟩
      · have : (n : Int) * ((t : Int) + 1 - 1) = n * t := by ring
        rw [this]
        push_cast
        constructor <;> omega
      · push_cast; ring
    · refine ⟨((t + 1 + n * k : Nat) : Int), .inr ⟨k, hk, rfl⟩, ?_⟩
      push_cast
      ring

theorem mem_interIndex {a b : List Nat} {c : Nat} (h : c ∈ interIndex a b) : c < a.length ∧ a.getD c 0 ∈ b := by
  unfold interIndex at h
  obtain ⟨v, hv, rfl⟩ := List.mem_map.1 h
  rw [List.mem_filter, mem_uniq] at hv
  have hlt := List.idxOf_lt_length_of_mem hv.1
  refine ⟨hlt, ?_⟩
  rw [List.getD_eq_getElem?_getD, List.getElem?_eq_getElem hlt, Option.getD_some, List.getElem_idxOf]
  simpa using hv.2

theorem headD_mem {l : List Nat} (h : l ≠ []) : l.headD 0 ∈ l := by
  cases l with
  | nil => exact absurd rfl h
  | cons a l => simp

/-- What all entries of the result satisfy. -/
def Zero (K : Cone) (x : Nat → ℝ) (z : List Int) : Prop := ∀ i ∈ z, ∃ k : Nat, i = (k : Int) ∧ x k = 0

theorem vanishR_sound {K : Cone} {indx : List Nat} {z w : List Int × NewCone} (h : vanishR K indx z = .ok w)
    {x : Nat → ℝ} (hx : InCone K x) (h0 : ∀ i ∈ indx, x i = 0) (hz : Zero K x z.1) : Zero K x w.1 := by
  unfold vanishR at h
  by_cases hs : startR K = []
  · rw [if_pos hs] at h
    rw [← Outcome.ok.inj h]
    exact hz
  · rw [if_neg hs] at h
    simp only at h
    split at h
    · cases h
    · rw [← Outcome.ok.inj h]
      simp only
      intro i hi
      rcases List.mem_append.1 hi with hi | hi
      · exact hz i hi
      · split at hi
        · simp at hi
        · rename_i hne
          have ha : anyPos K.r = true := by
            unfold startR at hs
            by_contra hc
            rw [if_neg hc] at hs
            exact hs rfl
          have hmem := headD_mem hne
          generalize (uniq _).headD 0 = c at hmem hi
          rw [mem_uniq, List.mem_append] at hmem
          have hlen : (startR K).length = K.r.length := by
            unfold startR
            rw [if_pos ha, startsFrom_length]
          have hc : c < K.r.length := by
            rcases hmem with h | h
            · exact hlen ▸ (mem_interIndex h).1
            · have := (mem_interIndex h).1
              rw [List.length_map] at this
              exact hlen ▸ this
          have hst : (startR K).getD c 0 = K.f + K.l + K.q.sum + (K.r.take c).sum + 1 := by
            unfold startR
            rw [if_pos ha, startsFrom_get _ _ _ hc]
          have hen : (endR K).getD c 0 = (startR K).getD c 0 + K.r.getD c 0 - 1 := by
            unfold endR
            rw [zipWith_getD _ _ _ _ (by omega) hc]
          have hor : x ((startR K).getD c 0) = 0 ∨ x ((startR K).getD c 0 + 1) = 0 := by
            rcases hmem with h | h
            · left
              exact h0 _ (List.mem_of_mem_filter (mem_interIndex h).2)
            · right
              have h2 := (mem_interIndex h).2
              rw [List.getD_eq_getElem?_getD, List.getElem?_map,
                List.getElem?_eq_getElem (by omega : c < (startR K).length)] at h2
              have h3 := h0 _ (List.mem_of_mem_filter h2)
              simp only [Option.map_some, Option.getD_some] at h3
              rw [List.getD_eq_getElem?_getD, List.getElem?_eq_getElem (by omega : c < (startR K).length)]
              exact h3
          rw [mem_colonInt_one, hen] at hi
          refine ⟨i.toNat, by omega, ?_⟩
          have hpos : 0 < K.r.getD c 0 := by omega
          have hb := rotated_block K.r _ x hx.rotated c hc hpos
          rw [show K.f + K.l + K.q.sum + 1 + (K.r.take c).sum = (startR K).getD c 0 by omega] at hb
          have hprod : 2 * x ((startR K).getD c 0) * x ((startR K).getD c 0 + 1) = 0 := by
            rcases hor with h | h <;> rw [h] <;> ring
          rw [hprod] at hb
          have hall := (Finset.sum_eq_zero_iff_of_nonneg (fun k _ => sq_nonneg (x k))).1
            (le_antisymm hb (Finset.sum_nonneg fun k _ => sq_nonneg (x k)))
          exact pow_eq_zero_iff (two_ne_zero) |>.1 (hall i.toNat (Finset.mem_Ico.2 ⟨by omega, by omega⟩))

theorem onDiagonal_any {s : List Nat} {a d : Nat} (h : OnDiagonal s a d) : anyPos s = true := by
  obtain ⟨b, t, hb, ht, -⟩ := diag_block s a d h
  unfold anyPos
  rw [List.any_eq_true]
  refine ⟨s[b], List.getElem_mem hb, ?_⟩
  rw [List.getD_eq_getElem?_getD, List.getElem?_eq_getElem hb] at ht
  simp only [Option.getD_some] at ht
  simp
  omega

/-- The part for semidefinite cones with one entry on a diagonal. -/
theorem vanishS_one {K : Cone} {indx : List Nat} {z : List Int × NewCone} {b t : Nat} (hb : b < K.s.length)
    (ht : t < K.s.getD b 0)
    (hD : (uniq (indxDiag K).flatten).filter (fun i => (indx.filter fun i =>
      decide ((startS K).headD 0 ≤ i) && decide (i ≤ (endS K).getLastD 0)).contains i) =
        [before K + 1 + ((K.s.take b).map fun n => n * n).sum + (t + K.s.getD b 0 * t)]) :
    ∃ rc : List Int, vanishS K indx z = .ok (z.1 ++ rc, { z.2 with s := z.2.s.modify b (· - 1) }) ∧
      ∀ i : Int, i ∈ rc ↔ ∃ k < K.s.getD b 0,
        i = ((before K + 1 + ((K.s.take b).map fun n => n * n).sum + (k + K.s.getD b 0 * t) : Nat) : Int) ∨
        i = ((before K + 1 + ((K.s.take b).map fun n => n * n).sum + (t + K.s.getD b 0 * k) : Nat) : Int) := by
  have hs : anyPos K.s = true := onDiagonal_any (onDiagonal_block K.s (before K + 1) b t hb ht)
  have hne : startS K ≠ [] := by
    unfold startS
    rw [if_pos hs]
    exact startsFrom_ne (by rw [anyPos_sq]; exact hs)
  have hlen : (startS K).length = K.s.length := by
    unfold startS
    rw [if_pos hs, startsFrom_length, List.length_map]
  have hget : (startS K).getD b 0 = before K + ((K.s.take b).map fun n => n * n).sum + 1 := by
    unfold startS
    rw [if_pos hs, startsFrom_get _ _ _ (by simpa using hb), ← List.map_take]
    rfl
  unfold vanishS
  rw [if_neg hne]
  simp only [hD]
  rw [if_neg (by simp), lastLinear_block hs hb ht, if_neg (by omega)]
  simp only [Nat.add_sub_cancel, List.headD_cons, hget]
  rw [if_neg (by omega)]
  refine ⟨_, rfl, fun i => ?_⟩
  have e1 : (((before K + ((K.s.take b).map fun n => n * n).sum + 1 : Nat) : Int) - 1) =
      ((before K + ((K.s.take b).map fun n => n * n).sum : Nat) : Int) := by push_cast; ring
  have e2 : (((before K + 1 + ((K.s.take b).map fun n => n * n).sum + (t + K.s.getD b 0 * t) : Nat) : Int) -
      ((before K + ((K.s.take b).map fun n => n * n).sum : Nat) : Int) - 1) / ((K.s.getD b 0 : Nat) : Int) = t := by
    have : ((before K + 1 + ((K.s.take b).map fun n => n * n).sum + (t + K.s.getD b 0 * t) : Nat) : Int) -
        ((before K + ((K.s.take b).map fun n => n * n).sum : Nat) : Int) - 1 =
        (t : Int) + t * ((K.s.getD b 0 : Nat) : Int) := by push_cast; ring
    rw [this, Int.add_mul_ediv_right _ _ (by omega), Int.ediv_eq_zero_of_lt (by omega) (by omega), zero_add]
  rw [e1, e2, mem_rc ht]
  simp only [show before K + ((K.s.take b).map fun n => n * n).sum + 1 =
    before K + 1 + ((K.s.take b).map fun n => n * n).sum by omega]

theorem vanishS_none {K : Cone} {indx : List Nat} {z : List Int × NewCone}
    (h : ∀ i ∈ indx, ¬ OnDiagonal K.s (before K + 1) i) : vanishS K indx z = .ok z := by
  unfold vanishS
  split
  · rfl
  · simp only
    rw [if_pos]
    rw [List.filter_eq_nil_iff]
    intro i hi hc
    rw [mem_uniq, mem_diag_iff] at hi
    simp only [List.contains_iff_mem] at hc
    exact h i (List.mem_of_mem_filter hc) hi

theorem ends_getLast : ∀ (l : List Nat) (off : Nat), l ≠ [] →
    (List.zipWith (fun a n => a + n - 1) (startsFrom off l) l).getLastD 0 = off + l.sum := by
  intro l
  induction l with
  | nil => intro off h; exact absurd rfl h
  | cons n ns ih =>
    intro off _
    by_cases hn : ns = []
    · subst hn
      simp [startsFrom]
    · have := ih (off + n) hn
      simp only [startsFrom, List.zipWith_cons_cons, List.sum_cons]
      cases hz : List.zipWith (fun a n => a + n - 1) (startsFrom (off + n) ns) ns with
      | nil =>
        have := congrArg List.length hz
        simp [startsFrom_length] at this
        exact absurd this hn
      | cons u us =>
        rw [hz] at this
        simp only [List.getLastD_cons] at this ⊢
        rw [this]
        omega

theorem sorted_range {K : Cone} (h : anyPos K.s = true) {i : Nat} (hi : OnDiagonal K.s (before K + 1) i) :
    (startS K).headD 0 ≤ i ∧ i ≤ (endS K).getLastD 0 := by
  have hd := (onDiagonal_iff_aux _ _ _).1 hi
  refine ⟨by rw [startS_head h]; exact hd.1, ?_⟩
  have hne : K.s.map (fun n => n * n) ≠ [] := by
    intro he
    rw [List.map_eq_nil_iff] at he
    rw [he] at h
    simp [anyPos] at h
  have hlast : (endS K).getLastD 0 = before K + numVar K.s := by
    rw [endS_eq]
    unfold startS
    rw [if_pos h, numVar_eq]
    exact ends_getLast _ _ hne
  rw [hlast]
  omega

/-- The entries on the diagonals, if there is just one. -/
theorem diag_single {K : Cone} {indx : List Nat} {d : Nat} (hd : d ∈ indx) (hD : OnDiagonal K.s (before K + 1) d)
    (h1 : ∀ i ∈ indx, OnDiagonal K.s (before K + 1) i → i = d) :
    (uniq (indxDiag K).flatten).filter (fun i => (indx.filter fun i =>
      decide ((startS K).headD 0 ≤ i) && decide (i ≤ (endS K).getLastD 0)).contains i) = [d] := by
  have hs := onDiagonal_any hD
  have hnd : ((uniq (indxDiag K).flatten).filter (fun i => (indx.filter fun i =>
      decide ((startS K).headD 0 ≤ i) && decide (i ≤ (endS K).getLastD 0)).contains i)).Nodup :=
    (List.nodup_dedup _).filter _
  have hmem : ∀ i, i ∈ (uniq (indxDiag K).flatten).filter (fun i => (indx.filter fun i =>
      decide ((startS K).headD 0 ≤ i) && decide (i ≤ (endS K).getLastD 0)).contains i) ↔ i = d := by
    intro i
    rw [List.mem_filter, mem_uniq, mem_diag_iff, List.contains_iff_mem, List.mem_filter]
    constructor
    · rintro ⟨g1, g2, -⟩
      exact h1 i g2 g1
    · rintro rfl
      have := sorted_range hs hD
      exact ⟨hD, hd, by simpa using this⟩
  generalize (uniq (indxDiag K).flatten).filter _ = l at hnd hmem
  match l, hnd, hmem with
  | [], _, hmem => exact absurd ((hmem d).2 rfl) (by simp)
  | [a], _, hmem => rw [(hmem a).1 (by simp)]
  | a :: b :: l, hnd, hmem =>
    have h1 := (hmem a).1 (by simp)
    have h2 := (hmem b).1 (by simp)
    rw [h1, h2] at hnd
    simp at hnd

theorem vanishS_sound {K : Cone} {indx : List Nat} {z w : List Int × NewCone} (h : vanishS K indx z = .ok w)
    (h1 : ∀ i ∈ indx, ∀ j ∈ indx, OnDiagonal K.s (before K + 1) i → OnDiagonal K.s (before K + 1) j → i = j)
    {x : Nat → ℝ} (hx : InCone K x) (h0 : ∀ i ∈ indx, x i = 0) (hz : Zero K x z.1) : Zero K x w.1 := by
  by_cases hd : ∃ d ∈ indx, OnDiagonal K.s (before K + 1) d
  · obtain ⟨d, hd, hD⟩ := hd
    have hl := diag_single hd hD fun i hi hI => h1 i hi d hd hI hD
    obtain ⟨b, t, hb, ht, rfl⟩ := diag_block _ _ _ hD
    obtain ⟨rc, e, hrc⟩ := vanishS_one (z := z) hb ht hl
    rw [e] at h
    rw [← Outcome.ok.inj h]
    intro i hi
    rcases List.mem_append.1 hi with hi | hi
    · exact hz i hi
    · obtain ⟨k, hk, hi⟩ := (hrc i).1 hi
      have hp := cone_block K.s _ x hx.psd b hb
      have hz0 := h0 _ hd
      have := psd_zero_row hp (t := ⟨t, ht⟩) (by simpa using hz0) ⟨k, hk⟩
      simp only [Matrix.of_apply] at this
      rcases hi with rfl | rfl
      · exact ⟨_, rfl, this.1⟩
      · exact ⟨_, rfl, this.2⟩
  · rw [vanishS_none (fun i hi hI => hd ⟨i, hi, hI⟩)] at h
    rw [← Outcome.ok.inj h]
    exact hz

end Verif.ConeBase
