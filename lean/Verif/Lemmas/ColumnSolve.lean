import Verif.Lemmas.ColumnFactor

/-!
# Lemmas about the column-by-column substitutions
-/

namespace Verif.Sup

open Finset Spec

variable {R : Type} [Field R]
variable {sz : List Nat} {sp : List (List Nat)} {path : List (List Nat)} {w : Workspace}

theorem subtract_eq (P : Pattern sz sp) (W : WsOK sz sp w) {b i : Nat} (hb : InBlock sz b i) (S : Store R)
    (f : Nat → R) (y : R) (v : Nat) (hv : v < sz.sum) :
    (colAt sz b i).subtract w S f y v = if i ≤ v then f v - y * ent sz sp S v i else f v := by
  have h1 := hb.2.1
  have h2 := hb.2.2
  have h3 := start_succ' hb.1
  unfold Col.subtract
  simp only [W.sep_eq, W.size_eq]
  have hidx : (colAt sz b i).idx = b := rfl
  have hsc : (colAt sz b i).sc = i - start sz b := rfl
  have hcol : (colAt sz b i).column = i := rfl
  have hden : (colAt sz b i).dense = sz.getD b 0 - (i - start sz b) := rfl
  rw [hidx, hsc, hcol, hden]
  rw [subSep_apply_aux (fun c => y * S (.off b (i - start sz b) c)) (sp.getD b []) 0 _
    (SSorted.nodup (P.sep_sorted b)) v]
  by_cases hs : v ∈ sp.getD b []
  · have := (P.sep_not_own hs).1
    rw [if_pos hs, if_neg (by omega), if_pos (show i ≤ v by omega)]
    unfold ent
    rw [full_off P hs hb, Nat.zero_add]
  · rw [if_neg hs]
    by_cases hi : i ≤ v
    · rw [if_pos hi]
      by_cases hv' : v < start sz (b + 1)
      · have hvb : InBlock sz b v := ⟨hb.1, by omega, hv'⟩
        rw [if_pos (by omega)]
        unfold ent
        rw [full_diag hvb hb,
          show sz.getD b 0 - (sz.getD b 0 - (i - start sz b)) + (v - i) = v - start sz b by omega]
      · rw [if_neg (by omega)]
        unfold ent
        rw [full_zero (fun h => by have := h.2.2; omega) hs hb, mul_zero, sub_zero]
    · rw [if_neg hi, if_neg (by omega)]

theorem colForwardLoop_eq (P : Pattern sz sp) (W : WsOK sz sp w) (hg : NoGap sz) (S : Store R)
    (f : Nat → R) :
    ∀ i, i < sz.sum → ∃ res y b, InBlock sz b i ∧ colForwardLoop w S f i = .ok (res, y, colAt sz b i) ∧
      (∀ v, i ≤ v → v < sz.sum → res v = f v - ∑ q ∈ range i, ent sz sp S v q * y q) ∧
      (∀ q, q ≤ i → y q = (f q - ∑ t ∈ range q, ent sz sp S q t * y t) / ent sz sp S q q)
  | 0, hi => by
    have hb := inBlock_zero hg hi
    refine ⟨f, fun v => if v = 0 then f 0 / ent sz sp S 0 0 else 0, 0, hb, ?_, ?_, ?_⟩
    · unfold colForwardLoop
      rw [init_eq W hb]
      simp only [Outcome.bind, diagonal_eq W hb]
    · intro v _ _; simp
    · intro q hq
      have : q = 0 := by omega
      subst this
      simp
  | i + 1, hi => by
    obtain ⟨res, y, b, hb, e, h1, h2⟩ := colForwardLoop_eq P W hg S f i (by omega)
    obtain ⟨b', hb', e2⟩ := next_eq W hg hb hi
    have hres : ∀ v, i + 1 ≤ v → v < sz.sum → (colAt sz b i).subtract w S res (y i) v =
        f v - ∑ q ∈ range (i + 1), ent sz sp S v q * y q := by
      intro v hv hvN
      rw [subtract_eq P W hb S res (y i) v hvN, if_pos (by omega), h1 v (by omega) hvN, sum_range_succ]
      ring
    have hsum : ∀ (v m : Nat) (z : R), m ≤ i + 1 →
        ∑ q ∈ range m, ent sz sp S v q * (if q = i + 1 then z else y q) =
        ∑ q ∈ range m, ent sz sp S v q * y q := by
      intro v m z hm
      refine sum_congr rfl fun q hq => ?_
      have := mem_range.1 hq
      rw [if_neg (by omega)]
    refine ⟨(colAt sz b i).subtract w S res (y i), fun v => if v = i + 1 then
      (colAt sz b i).subtract w S res (y i) (i + 1) / ent sz sp S (i + 1) (i + 1) else y v, b', hb', ?_, ?_, ?_⟩
    · unfold colForwardLoop
      rw [e]
      simp only [Outcome.bind, e2, diagonal_eq W hb']
    · intro v hv hvN
      rw [hres v hv hvN]
      congr 1
      exact (hsum v (i + 1) _ le_rfl).symm
    · intro q hq
      simp only
      by_cases hq' : q = i + 1
      · subst hq'
        rw [if_pos rfl, hsum _ _ _ le_rfl, hres (i + 1) le_rfl hi]
      · rw [if_neg hq', hsum _ _ _ (by omega), h2 q (by omega)]

theorem columnForward_eq (P : Pattern sz sp) (W : WsOK sz sp w) (hg : NoGap sz) (hN : 0 < sz.sum)
    (S : Store R) (f : Nat → R) (hd : ∀ i, i < sz.sum → ent sz sp S i i ≠ 0) :
    ∃ y, columnForward w S f = .ok y ∧
      ∀ i, i < sz.sum → ∑ j ∈ range (i + 1), ent sz sp S i j * y j = f i := by
  obtain ⟨res, y, b, _, e, _, h⟩ := colForwardLoop_eq P W hg S f (sz.sum - 1) (by omega)
  refine ⟨y, ?_, ?_⟩
  · unfold columnForward
    rw [W.N, e]
    rfl
  · intro i hi
    rw [sum_range_succ, h i (by omega), mul_div_cancel₀ _ (hd i hi)]
    ring

theorem transposeInner_eq (P : Pattern sz sp) (hp : IsPath sz sp path) (W : WsOK sz sp w)
    (hf : ∀ k, k < sz.length → path.getD k [] ≠ []) (S : Store R) {row : Nat} (hr : row < sz.sum) (y : R) :
    ∀ (js : List Nat) (res : Nat → R), js.Nodup → (∀ j ∈ js, j ≤ row) →
    ∃ res', transposeInner w path S row y js res = .ok res' ∧
      ∀ v, res' v = if v ∈ js then res v - ent sz sp S row v * y else res v
  | [], res, _, _ => ⟨res, rfl, fun v => by simp⟩
  | j :: js, res, hnd, h => by
    rw [List.nodup_cons] at hnd
    obtain ⟨res', e, g⟩ := transposeInner_eq P hp W hf S hr y js
      (fun v => if v = j then res j - ent sz sp S row j * y else res v) hnd.2
      (fun a ha => h a (List.mem_cons_of_mem _ ha))
    refine ⟨res', ?_, ?_⟩
    · unfold transposeInner
      rw [pathGet_eq P hp W hf S hr (h j (by simp))]
      simp only [Outcome.bind]
      exact e
    · intro v
      rw [g v]
      by_cases hv : v = j
      · subst hv
        simp [hnd.1]
      · simp [hv]

theorem colBackwardLoop_eq (P : Pattern sz sp) (hp : IsPath sz sp path) (W : WsOK sz sp w)
    (hf : ∀ k, k < sz.length → path.getD k [] ≠ []) (S : Store R) (f : Nat → R) :
    ∀ t, t < sz.sum → ∃ res y, colBackwardLoop w path S sz.sum f t = .ok (res, y) ∧
      (∀ v, v < sz.sum - t → res v = f v - ∑ r ∈ Ico (sz.sum - t) sz.sum, ent sz sp S r v * y r) ∧
      (∀ q, sz.sum - 1 - t ≤ q → q < sz.sum →
        y q = (f q - ∑ r ∈ Ico (q + 1) sz.sum, ent sz sp S r q * y r) / ent sz sp S q q)
  | 0, ht => by
    refine ⟨f, fun v => if v = sz.sum - 1 then f (sz.sum - 1) / ent sz sp S (sz.sum - 1) (sz.sum - 1) else 0,
      ?_, ?_, ?_⟩
    · unfold colBackwardLoop
      rw [if_neg (by omega), pathGet_eq P hp W hf S (by omega) le_rfl]
      rfl
    · intro v _; simp
    · intro q h1 h2
      have : q = sz.sum - 1 := by omega
      subst this
      rw [Ico_eq_empty (by omega)]
      simp
  | t + 1, ht => by
    obtain ⟨res, y, e, h1, h2⟩ := colBackwardLoop_eq P hp W hf S f t (by omega)
    set i := sz.sum - 2 - t with hi
    obtain ⟨res', e', g⟩ := transposeInner_eq P hp W hf S (row := i + 1) (by omega) (y (i + 1))
      (List.range (i + 1)) res List.nodup_range (fun j hj => by have := List.mem_range.1 hj; omega)
    have hres : ∀ v, v < i + 1 → res' v = f v - ∑ r ∈ Ico (i + 1) sz.sum, ent sz sp S r v * y r := by
      intro v hv
      rw [g v, if_pos (List.mem_range.2 hv), h1 v (by omega), show sz.sum - t = i + 1 + 1 by omega,
        sum_eq_sum_Ico_succ_bot (show i + 1 < sz.sum by omega)]
      ring
    have hsum : ∀ (v m : Nat) (z : R), i < m → ∑ r ∈ Ico m sz.sum, ent sz sp S r v * (if r = i then z else y r) =
        ∑ r ∈ Ico m sz.sum, ent sz sp S r v * y r := by
      intro v m z hm
      refine sum_congr rfl fun r hr => ?_
      have := (mem_Ico.1 hr).1
      rw [if_neg (by omega)]
    refine ⟨res', fun v => if v = i then res' i / ent sz sp S i i else y v, ?_, ?_, ?_⟩
    · unfold colBackwardLoop
      rw [e]
      simp only [Outcome.bind, ← hi, e', pathGet_eq P hp W hf S (show i < sz.sum by omega) le_rfl]
    · intro v hv
      rw [hres v (by omega), show sz.sum - (t + 1) = i + 1 by omega]
      congr 1
      exact (hsum v (i + 1) _ (by omega)).symm
    · intro q hq1 hq2
      simp only
      by_cases hq : q = i
      · subst hq
        rw [if_pos rfl, hsum _ _ _ (by omega), hres _ (by omega)]
      · rw [if_neg hq, hsum _ _ _ (by omega), h2 q (by omega) hq2]

theorem columnBackward_eq (P : Pattern sz sp) (hp : IsPath sz sp path) (W : WsOK sz sp w)
    (hf : ∀ k, k < sz.length → path.getD k [] ≠ []) (hN : 0 < sz.sum)
    (S : Store R) (f : Nat → R) (hd : ∀ i, i < sz.sum → ent sz sp S i i ≠ 0) :
    ∃ y, columnBackward w path S f = .ok y ∧
      ∀ j, j < sz.sum → ∑ i ∈ Ico j sz.sum, ent sz sp S i j * y i = f j := by
  obtain ⟨res, y, e, _, h⟩ := colBackwardLoop_eq P hp W hf S f (sz.sum - 1) (by omega)
  refine ⟨y, ?_, ?_⟩
  · unfold columnBackward
    rw [W.N, e]
    rfl
  · intro j hj
    rw [sum_eq_sum_Ico_succ_bot hj, h j (by omega) hj, mul_div_cancel₀ _ (hd j hj)]
    ring

/-! ### Empty supernodes -/

/-- The first empty block before a column. -/
theorem exists_gap (hg : ¬ NoGap sz) : ∃ k, k < sz.length ∧ sz.getD k 0 = 0 ∧
    start sz k < sz.sum ∧ ∀ k', k' < k → 0 < sz.getD k' 0 := by
  classical
  unfold NoGap at hg
  push_neg at hg
  have hex : ∃ k, ∃ k' v, InBlock sz k' v ∧ k ≤ k' ∧ sz.getD k 0 ≤ 0 := hg
  obtain ⟨k', v, h1, h2, h3⟩ := Nat.find_spec hex
  have hmin := fun m => Nat.find_min hex (m := m)
  generalize Nat.find hex = k at h1 h2 h3 hmin
  refine ⟨k, by have := h1.1; omega, by omega, ?_, ?_⟩
  · have := start_mono sz h2
    have := h1.2.1
    have := h1.lt_sum
    omega
  · intro m hm
    by_contra hc
    exact hmin m hm ⟨k', v, h1, by omega, by omega⟩

theorem inBlock_last {k : Nat} (hk : k ≤ sz.length) (hpos : ∀ k', k' < k → 0 < sz.getD k' 0) (h0 : 0 < k) :
    InBlock sz (k - 1) (start sz k - 1) ∧ 0 < start sz k := by
  obtain ⟨m, rfl⟩ : ∃ m, k = m + 1 := ⟨k - 1, by omega⟩
  have := hpos m (by omega)
  have h3 := start_succ' (sz := sz) (show m < sz.length by omega)
  simp only [Nat.add_sub_cancel]
  exact ⟨⟨by omega, by omega, by omega⟩, by omega⟩

/-- Up to the first empty block the column operations visit the columns in order. -/
theorem next_eq' (W : WsOK sz sp w) {k : Nat} (hk : k < sz.length) (hpos : ∀ k', k' < k → 0 < sz.getD k' 0)
    {b i : Nat} (hb : InBlock sz b i) (hi : i + 1 < start sz k) :
    ∃ b', InBlock sz b' (i + 1) ∧ (colAt sz b i).next w = .ok (colAt sz b' (i + 1)) := by
  have h1 := hb.2.1
  have h2 := hb.2.2
  have h3 := start_succ' hb.1
  have hidx : (colAt sz b i).idx = b := rfl
  have hsc : (colAt sz b i).sc = i - start sz b := rfl
  unfold Col.next
  rw [W.sizes, hidx, sizes_getElem hb.1, hsc]
  simp only
  by_cases h : sz.getD b 0 ≤ i - start sz b + 1
  · rw [if_pos h]
    have hs : start sz (b + 1) = i + 1 := by omega
    have hbk : b + 1 < k := by
      by_contra hc
      have := start_mono sz (show k ≤ b + 1 by omega)
      omega
    have hl : b + 1 < sz.length := by omega
    have hp := hpos (b + 1) hbk
    have hb' : InBlock sz (b + 1) (i + 1) := ⟨hl, by omega, by rw [start_succ' hl]; omega⟩
    refine ⟨b + 1, hb', ?_⟩
    rw [sizes_getElem hl]
    simp [hs, colAt]
  · rw [if_neg h]
    refine ⟨b, ⟨hb.1, by omega, by omega⟩, ?_⟩
    simp only [colAt, Outcome.ok.injEq, Col.mk.injEq, true_and]
    omega

theorem next_gap (W : WsOK sz sp w) {k : Nat} (hk : k < sz.length) (h0 : sz.getD k 0 = 0) {i : Nat}
    (hki : 0 < k) (hb : InBlock sz (k - 1) i) (hi : start sz k = i + 1) :
    ∃ p, (colAt sz (k - 1) i).next w = .ok p ∧ ∀ S : Store R, p.diagonal w S = .ub := by
  obtain ⟨m, rfl⟩ : ∃ m, k = m + 1 := ⟨k - 1, by omega⟩
  simp only [Nat.add_sub_cancel] at hb ⊢
  have h3 := start_succ' hb.1
  have h1 := hb.2.1
  have hidx : (colAt sz m i).idx = m := rfl
  have hsc : (colAt sz m i).sc = i - start sz m := rfl
  refine ⟨⟨m + 1, 0, i + 1, 0⟩, ?_, ?_⟩
  · unfold Col.next
    rw [W.sizes, hidx, sizes_getElem hb.1, hsc]
    simp only
    rw [if_pos (by omega), sizes_getElem hk, h0]
    rfl
  · intro S
    unfold Col.diagonal
    simp [W.size_eq, ← List.getD_eq_getElem?_getD, h0]

theorem init_gap (W : WsOK sz sp w) (hk : 0 < sz.length) (h0 : sz.getD 0 0 = 0) :
    ∃ p, Col.init w = .ok p ∧ ∀ S : Store R, p.diagonal w S = .ub := by
  refine ⟨⟨0, 0, 0, 0⟩, ?_, ?_⟩
  · unfold Col.init
    rw [W.sizes, sizes_getElem hk, h0]
  · intro S
    unfold Col.diagonal
    simp [W.size_eq, ← List.getD_eq_getElem?_getD, h0]

theorem colForward_pre (W : WsOK sz sp w) (S : Store R) (f : Nat → R) {k : Nat} (hk : k < sz.length)
    (hpos : ∀ k', k' < k → 0 < sz.getD k' 0) :
    ∀ i, i < start sz k → ∃ res y b, InBlock sz b i ∧ colForwardLoop w S f i = .ok (res, y, colAt sz b i)
  | 0, hi => by
    have hk0 : 0 < k := by
      by_contra hc
      have : k = 0 := by omega
      subst this
      simp [start] at hi
    have hb : InBlock sz 0 0 :=
      ⟨by omega, by simp [start], by rw [start_succ' (by omega)]; have := hpos 0 hk0; omega⟩
    refine ⟨f, fun v => if v = 0 then f 0 / ent sz sp S 0 0 else 0, 0, hb, ?_⟩
    unfold colForwardLoop
    rw [init_eq W hb]
    simp only [Outcome.bind, diagonal_eq W hb]
  | i + 1, hi => by
    obtain ⟨res, y, b, hb, e⟩ := colForward_pre W S f hk hpos i (by omega)
    obtain ⟨b', hb', e2⟩ := next_eq' W hk hpos hb hi
    refine ⟨(colAt sz b i).subtract w S res (y i), fun v => if v = i + 1 then
      (colAt sz b i).subtract w S res (y i) (i + 1) / ent sz sp S (i + 1) (i + 1) else y v, b', hb', ?_⟩
    unfold colForwardLoop
    rw [e]
    simp only [Outcome.bind, e2, diagonal_eq W hb']

theorem colForward_gap (P : Pattern sz sp) (W : WsOK sz sp w) (S : Store R) (f : Nat → R) (hg : ¬ NoGap sz) :
    columnForward w S f = .ub := by
  obtain ⟨k, hk, h0, hlt, hpos⟩ := exists_gap hg
  have at_k : colForwardLoop w S f (start sz k) = .ub := by
    rcases Nat.eq_zero_or_pos k with rfl | hk0
    · obtain ⟨p, e, hp⟩ := init_gap (R := R) W hk h0
      have : start sz 0 = 0 := by simp [start]
      rw [this]
      unfold colForwardLoop
      rw [e]
      simp only [Outcome.bind, hp]
    · obtain ⟨hb, hs⟩ := inBlock_last (by omega) hpos hk0
      obtain ⟨res, y, b, hb', e⟩ := colForward_pre W S f hk hpos (start sz k - 1) (by omega)
      have := hb'.unique hb
      subst this
      obtain ⟨p, e2, hp⟩ := next_gap (R := R) W hk h0 hk0 hb (by omega)
      obtain ⟨i, hi⟩ : ∃ i, start sz k = i + 1 := ⟨start sz k - 1, by omega⟩
      rw [hi] at e e2 ⊢
      simp only [Nat.add_sub_cancel] at e e2
      unfold colForwardLoop
      rw [e]
      simp only [Outcome.bind, e2, hp]
  have later : ∀ n, colForwardLoop w S f (start sz k + n) = .ub := by
    intro n
    induction n with
    | zero => exact at_k
    | succ n ih =>
      rw [← Nat.add_assoc]
      unfold colForwardLoop
      rw [ih]
      rfl
  unfold columnForward
  rw [W.N]
  have := later (sz.sum - 1 - start sz k)
  rw [show start sz k + (sz.sum - 1 - start sz k) = sz.sum - 1 by omega] at this
  rw [this]
  rfl

theorem outcome_bind_ok {α β : Type} {x : Outcome α} {g : α → Outcome β} {z : β} (h : x.bind g = .ok z) :
    ∃ y, x = .ok y ∧ g y = .ok z := by
  cases x <;> simp [Outcome.bind] at h
  exact ⟨_, rfl, h⟩

theorem normalize_ok {sqrt : R → R} {S : Store R} {p : Col} {st : Store R × Col}
    (h : normalize sqrt w S p = .ok st) : st.2 = p ∧ ∃ d, p.diagonal w S = .ok d := by
  unfold normalize at h
  obtain ⟨d, h1, h⟩ := outcome_bind_ok h
  obtain ⟨S', h2, h⟩ := outcome_bind_ok h
  simp only [Outcome.ok.injEq] at h
  subst h
  exact ⟨rfl, d, h1⟩

section

variable [DecidableEq R]

theorem colChol_pre (W : WsOK sz sp w) (sqrt : R → R) (S : Store R) {k : Nat} (hk : k < sz.length)
    (hpos : ∀ k', k' < k → 0 < sz.getD k' 0) :
    ∀ i, i < start sz k → ∀ st, colCholLoop sqrt w path S i = .ok st →
      ∃ b, InBlock sz b i ∧ st.2 = colAt sz b i
  | 0, hi, st, h => by
    have hk0 : 0 < k := by
      by_contra hc
      have : k = 0 := by omega
      subst this
      simp [start] at hi
    have hb : InBlock sz 0 0 :=
      ⟨by omega, by simp [start], by rw [start_succ' (by omega)]; have := hpos 0 hk0; omega⟩
    unfold colCholLoop at h
    rw [init_eq W hb] at h
    simp only [Outcome.bind] at h
    exact ⟨0, hb, (normalize_ok h).1⟩
  | i + 1, hi, st, h => by
    unfold colCholLoop at h
    obtain ⟨st0, h1, h⟩ := outcome_bind_ok h
    obtain ⟨b, hb, e⟩ := colChol_pre W sqrt S hk hpos i (by omega) st0 h1
    obtain ⟨S', h2, h⟩ := outcome_bind_ok h
    obtain ⟨b', hb', e2⟩ := next_eq' W hk hpos hb hi
    rw [e, e2] at h
    simp only [Outcome.bind] at h
    exact ⟨b', hb', (normalize_ok h).1⟩

theorem colChol_gap (W : WsOK sz sp w) (sqrt : R → R) (S : Store R) (hg : ¬ NoGap sz) (S' : Store R) :
    columnCholesky sqrt w path S ≠ .ok S' := by
  obtain ⟨k, hk, h0, hlt, hpos⟩ := exists_gap hg
  have at_k : ∀ st, colCholLoop sqrt w path S (start sz k) ≠ .ok st := by
    intro st h
    rcases Nat.eq_zero_or_pos k with rfl | hk0
    · obtain ⟨p, e, hp⟩ := init_gap (R := R) W hk h0
      have : start sz 0 = 0 := by simp [start]
      rw [this] at h
      unfold colCholLoop at h
      rw [e] at h
      simp only [Outcome.bind] at h
      obtain ⟨_, d, hd⟩ := normalize_ok h
      rw [hp] at hd
      cases hd
    · obtain ⟨hb, hs⟩ := inBlock_last (by omega) hpos hk0
      obtain ⟨i, hi⟩ : ∃ i, start sz k = i + 1 := ⟨start sz k - 1, by omega⟩
      rw [hi] at h
      unfold colCholLoop at h
      obtain ⟨st0, h1, h⟩ := outcome_bind_ok h
      obtain ⟨b, hb', e⟩ := colChol_pre W sqrt S hk hpos i (by omega) st0 h1
      rw [show start sz k - 1 = i by omega] at hb
      have := hb'.unique hb
      subst this
      obtain ⟨p, e2, hp⟩ := next_gap (R := R) W hk h0 hk0 hb hi
      obtain ⟨S1, h2, h⟩ := outcome_bind_ok h
      rw [e, e2] at h
      simp only [Outcome.bind] at h
      obtain ⟨_, d, hd⟩ := normalize_ok h
      rw [hp] at hd
      cases hd
  have later : ∀ n st, colCholLoop sqrt w path S (start sz k + n) ≠ .ok st := by
    intro n
    induction n with
    | zero => exact at_k
    | succ n ih =>
      intro st h
      rw [← Nat.add_assoc] at h
      unfold colCholLoop at h
      obtain ⟨st0, h1, _⟩ := outcome_bind_ok h
      exact ih st0 h1
  intro h
  unfold columnCholesky at h
  obtain ⟨st, h1, _⟩ := outcome_bind_ok h
  rw [W.N] at h1
  have := later (sz.sum - 1 - start sz k) st
  rw [show start sz k + (sz.sum - 1 - start sz k) = sz.sum - 1 by omega] at this
  exact this h1

end

end Verif.Sup
