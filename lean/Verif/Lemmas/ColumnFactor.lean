import Verif.Model.ColumnFactor
import Verif.Lemmas.BlockFactor
import Mathlib.Algebra.BigOperators.Ring.Finset
import Mathlib.Algebra.Order.Field.Basic
import Mathlib.Algebra.Order.BigOperators.Group.Finset
import Mathlib.Tactic.Ring
import Mathlib.Tactic.FieldSimp

/-!
# Lemmas about the column-by-column factorisation
-/

namespace Verif.Sup

open Finset Spec

variable {R : Type} [Field R]
variable {sz : List Nat} {sp : List (List Nat)} {path : List (List Nat)} {w : Workspace}

/-- A valid cell is determined by its entry. -/
theorem coord_inj (P : Pattern sz sp) {a b : Cell} (ha : Valid sz sp a) (hb : Valid sz sp b)
    (h : coord sz sp a = coord sz sp b) : a = b := by
  have h1 := valid_block ha
  have h2 := valid_block hb
  rw [h] at h1
  have hk := h1.unique h2
  have sepGet : ∀ k c, c < (sp.getD k []).length → (sp.getD k []).getD c 0 ∈ sp.getD k [] := by
    intro k c hc
    rw [List.getD_eq_getElem?_getD (l := sp.getD k []), List.getElem?_eq_getElem hc]
    exact List.getElem_mem _
  cases a with
  | diag k r c =>
    cases b with
    | diag k' r' c' =>
      simp only [Cell.block] at hk
      subst hk
      simp only [coord, Prod.mk.injEq] at h
      rw [show r = r' by omega, show c = c' by omega]
    | off k' r' c' =>
      simp only [Cell.block] at hk
      subst hk
      simp only [coord, Prod.mk.injEq] at h
      have := (P.sep_not_own (sepGet k c' hb.2.2)).1
      rw [start_succ' ha.1] at this
      have := ha.2.1
      omega
  | off k r c =>
    cases b with
    | diag k' r' c' =>
      simp only [Cell.block] at hk
      subst hk
      simp only [coord, Prod.mk.injEq] at h
      have := (P.sep_not_own (sepGet k c ha.2.2)).1
      rw [start_succ' ha.1] at this
      have := hb.2.1
      omega
    | off k' r' c' =>
      simp only [Cell.block] at hk
      subst hk
      simp only [coord, Prod.mk.injEq] at h
      have hnd : (sp.getD k []).Nodup := SSorted.nodup (P.sep_sorted k)
      have h3 := h.1
      rw [List.getD_eq_getElem?_getD (l := sp.getD k []), List.getElem?_eq_getElem ha.2.2,
        List.getD_eq_getElem?_getD (l := sp.getD k []), List.getElem?_eq_getElem hb.2.2] at h3
      simp only [Option.getD_some] at h3
      have := (List.Nodup.getElem_inj_iff hnd).1 h3
      rw [show r = r' by omega, this]

theorem ent_set (P : Pattern sz sp) {a : Cell} (ha : Valid sz sp a) (S : Store R) (v : R) {i j : Nat}
    (hi : i < sz.sum) (hj : j < sz.sum) :
    ent sz sp (S.set a v) i j = if coord sz sp a = (i, j) then v else ent sz sp S i j := by
  rcases ent_cases (R := R) P hi hj with ⟨b, hb1, hb2, hb3⟩ | ⟨h1, h2⟩
  · rw [hb3, hb3]
    unfold Store.set
    by_cases h : a = b
    · subst h; rw [if_pos hb2]; simp
    · rw [if_neg (Ne.symm h), if_neg (fun e => h (coord_inj P ha hb1 (e.trans hb2.symm)))]
  · rw [h1, h1, if_neg]
    intro e
    have hb := valid_block ha
    rw [e] at hb
    obtain ⟨h3, h4⟩ := h2 _ hb
    cases a with
    | diag k r c =>
      simp only [coord, Prod.mk.injEq] at e
      exact h3 (e.1 ▸ inBlock_add ha.1 ha.2.1)
    | off k r c =>
      simp only [coord, Prod.mk.injEq] at e
      apply h4
      rw [← e.1]
      simp only [Cell.block]
      rw [List.getD_eq_getElem?_getD (l := sp.getD k []), List.getElem?_eq_getElem ha.2.2]
      exact List.getElem_mem _

/-! ### Look-up through the fronts -/

theorem path_getD (P : Pattern sz sp) (hp : IsPath sz sp path) {k : Nat} (hk : k < sz.length) :
    path.getD k [] = List.range' (start sz k) (sz.getD k 0) ++ sp.getD k [] := by
  have h1 : k < sp.length := by rw [P.len]; exact hk
  rw [List.getD_eq_getElem?_getD, hp.2 k _ _ (List.getElem?_eq_getElem hk) (List.getElem?_eq_getElem h1),
    List.getD_eq_getElem?_getD, List.getElem?_eq_getElem hk, List.getD_eq_getElem?_getD,
    List.getElem?_eq_getElem h1]
  rfl

theorem size_pos {k v : Nat} (h : InBlock sz k v) : 0 < sz.getD k 0 := by
  have := h.sub_lt; omega

theorem path_head (P : Pattern sz sp) (hp : IsPath sz sp path) {k : Nat} (hk : k < sz.length)
    (h : 0 < sz.getD k 0) : ∃ l, path.getD k [] = start sz k :: l := by
  rw [path_getD P hp hk]
  obtain ⟨n, hn⟩ : ∃ n, sz.getD k 0 = n + 1 := ⟨sz.getD k 0 - 1, by omega⟩
  rw [hn, List.range'_succ]
  exact ⟨_, rfl⟩

theorem lookupFirst_eq (P : Pattern sz sp) (hp : IsPath sz sp path)
    (hf : ∀ k, k < sz.length → path.getD k [] ≠ []) {b j : Nat} (hb : InBlock sz b j) :
    ∀ m, b < m → m ≤ sz.length → lookupFirst path j m = .ok b := by
  intro m
  induction m with
  | zero => intro h; omega
  | succ m ih =>
    intro h1 h2
    unfold lookupFirst
    by_cases hbm : b = m
    · subst hbm
      obtain ⟨l, hl⟩ := path_head P hp hb.1 (size_pos hb)
      rw [hl]
      simp [hb.2.1]
    · have hlt : j < start sz m := by
        have := start_mono sz (show b + 1 ≤ m by omega)
        have := hb.2.2; omega
      have hm : m < sz.length := by omega
      have hmem : ∀ x ∈ path.getD m [], start sz m ≤ x := by
        rw [path_getD P hp hm]
        intro x hx
        rcases List.mem_append.1 hx with hx | hx
        · rw [List.mem_range'] at hx
          omega
        · have := (P.sep_not_own hx).1
          have := start_mono sz (show m ≤ m + 1 by omega)
          omega
      have hne := hf m hm
      cases hx : path.getD m [] with
      | nil => exact absurd hx hne
      | cons x l =>
        simp only
        have := hmem x (by rw [hx]; simp)
        rw [if_neg (by omega)]
        exact ih (by omega) (by omega)

theorem cellIn_eq (P : Pattern sz sp) (hp : IsPath sz sp path) (W : WsOK sz sp w) {b i j : Nat}
    (hb : InBlock sz b j) (hij : j ≤ i) (hi : i < sz.sum) :
    (InBlock sz b i ∧ cellIn w path b i j = .ok (some (.diag b (i - start sz b) (j - start sz b)))) ∨
    (¬ InBlock sz b i ∧ i ∈ sp.getD b [] ∧
      cellIn w path b i j = .ok (some (.off b (j - start sz b) ((sp.getD b []).idxOf i)))) ∨
    (¬ InBlock sz b i ∧ i ∉ sp.getD b [] ∧ cellIn w path b i j = .ok none) := by
  obtain ⟨l, hl⟩ := path_head P hp hb.1 (size_pos hb)
  have hdrop : (path.getD b []).drop (sz.getD b 0) = sp.getD b [] := by
    rw [path_getD P hp hb.1]
    rw [List.drop_append_of_le_length (by simp)]
    simp
  have hhead : (path.getD b []).headD 0 = start sz b := by rw [hl]; rfl
  have hiff : InBlock sz b i ↔ i - start sz b < sz.getD b 0 := by
    constructor
    · exact fun h => h.sub_lt
    · intro h
      have := hb.2.1
      refine ⟨hb.1, by omega, ?_⟩
      rw [start_succ' hb.1]; omega
  unfold cellIn
  simp only [hhead, W.size_eq, hdrop]
  by_cases h1 : InBlock sz b i
  · left
    exact ⟨h1, by rw [if_pos ⟨hiff.1 h1, hb.sub_lt⟩]⟩
  · right
    rw [if_neg (fun h => h1 (hiff.2 h.1))]
    by_cases h2 : i ∈ sp.getD b []
    · left; exact ⟨h1, h2, by rw [if_pos h2, if_pos hb.sub_lt]⟩
    · right; exact ⟨h1, h2, by rw [if_neg h2]⟩

theorem pathGet_eq (P : Pattern sz sp) (hp : IsPath sz sp path) (W : WsOK sz sp w)
    (hf : ∀ k, k < sz.length → path.getD k [] ≠ []) (S : Store R) {i j : Nat} (hi : i < sz.sum)
    (hij : j ≤ i) : pathGet w path S i j = .ok (ent sz sp S i j) := by
  obtain ⟨b, hb⟩ := exists_block sz (show j < sz.sum by omega)
  unfold pathGet
  rw [if_neg (by omega), hp.1, lookupFirst_eq P hp hf hb _ hb.1 le_rfl]
  simp only [Outcome.bind]
  rcases cellIn_eq P hp W hb hij hi with ⟨h1, h⟩ | ⟨h1, h2, h⟩ | ⟨h1, h2, h⟩
  · rw [h]; simp only; unfold ent; rw [full_diag h1 hb]
  · rw [h]; simp only; unfold ent; rw [full_off P h2 hb]
  · rw [h]; simp only; unfold ent; rw [full_zero h1 h2 hb]

/-- Row `i` is in the pattern of column `j`. -/
def InPat (sz : List Nat) (sp : List (List Nat)) (i j : Nat) : Prop :=
  ∃ b, InBlock sz b j ∧ (InBlock sz b i ∨ i ∈ sp.getD b [])

theorem ent_zero_of_not {S : Store R} {i j : Nat} (hj : j < sz.sum) (h : ¬ InPat sz sp i j) :
    ent sz sp S i j = 0 := by
  obtain ⟨b, hb⟩ := exists_block sz hj
  exact full_zero (fun h1 => h ⟨b, hb, .inl h1⟩) (fun h2 => h ⟨b, hb, .inr h2⟩) hb

theorem pathIncrement_eq [DecidableEq R] (P : Pattern sz sp) (hp : IsPath sz sp path) (W : WsOK sz sp w)
    (hf : ∀ k, k < sz.length → path.getD k [] ≠ []) (S : Store R) (val : R) {i j : Nat}
    (hi : i < sz.sum) (hij : j ≤ i) (hpat : InPat sz sp i j) :
    ∃ S', pathIncrement w path S val i j = .ok S' ∧ ∀ r c, r < sz.sum → c ≤ r →
      ent sz sp S' r c = if r = i ∧ c = j then ent sz sp S r c + val else ent sz sp S r c := by
  unfold pathIncrement
  by_cases hv : val = 0
  · rw [if_pos hv]
    exact ⟨S, rfl, fun r c _ _ => by subst hv; simp⟩
  rw [if_neg hv, if_neg (by omega)]
  obtain ⟨b, hb, hor⟩ := hpat
  rw [hp.1, lookupFirst_eq P hp hf hb _ hb.1 le_rfl]
  simp only [Outcome.bind]
  have fin : ∀ a, Valid sz sp a → coord sz sp a = (i, j) → ent sz sp S i j = S a →
      ∀ r c, r < sz.sum → c ≤ r → ent sz sp (S.set a (S a + val)) r c =
        if r = i ∧ c = j then ent sz sp S r c + val else ent sz sp S r c := by
    intro a ha hc he r c hr hcr
    rw [ent_set P ha S _ hr (by omega), hc]
    simp only [Prod.mk.injEq]
    by_cases h : r = i ∧ c = j
    · obtain ⟨rfl, rfl⟩ := h
      simp [he]
    · rw [if_neg (fun e => h ⟨e.1.symm, e.2.symm⟩), if_neg h]
  rcases cellIn_eq P hp W hb hij hi with ⟨h1, h⟩ | ⟨h1, h2, h⟩ | ⟨h1, h2, h⟩
  · rw [h]
    refine ⟨_, rfl, fin _ ⟨hb.1, h1.sub_lt, hb.sub_lt⟩ ?_ (full_diag h1 hb)⟩
    simp only [coord, Prod.mk.injEq]
    exact ⟨by have := h1.2.1; omega, by have := hb.2.1; omega⟩
  · rw [h]
    refine ⟨_, rfl, fin _ ⟨hb.1, hb.sub_lt, List.idxOf_lt_length_of_mem h2⟩ ?_ (full_off P h2 hb)⟩
    simp only [coord, Prod.mk.injEq]
    refine ⟨?_, by have := hb.2.1; omega⟩
    rw [List.getD_eq_getElem?_getD (l := sp.getD b []),
      List.getElem?_eq_getElem (List.idxOf_lt_length_of_mem h2)]
    simp
  · rcases hor with h' | h'
    · exact absurd h' h1
    · exact absurd h' h2

/-! ### The update of the later columns -/

section Update

variable [DecidableEq R]

theorem updateInner_eq (P : Pattern sz sp) (hp : IsPath sz sp path) (W : WsOK sz sp w)
    (hf : ∀ k, k < sz.length → path.getD k [] ≠ []) {i x : Nat} (hix : i < x) (weight : R) :
    ∀ (ys : List Nat) (S : Store R), ys.Nodup →
    (∀ y ∈ ys, x ≤ y ∧ y < sz.sum ∧ InPat sz sp y x) →
    ∃ S', updateInner w path i x weight ys S = .ok S' ∧ ∀ r c, r < sz.sum → c ≤ r →
      ent sz sp S' r c = if c = x ∧ r ∈ ys then ent sz sp S r c + weight * ent sz sp S r i
        else ent sz sp S r c
  | [], S, _, _ => ⟨S, rfl, fun r c _ _ => by simp⟩
  | y :: ys, S, hnd, h => by
    rw [List.nodup_cons] at hnd
    obtain ⟨h1, h2, h3⟩ := h y (by simp)
    obtain ⟨S1, e1, g1⟩ := pathIncrement_eq P hp W hf S (weight * ent sz sp S y i) h2 h1 h3
    obtain ⟨S2, e2, g2⟩ := updateInner_eq P hp W hf hix weight ys S1 hnd.2
      (fun y' hy' => h y' (List.mem_cons_of_mem _ hy'))
    refine ⟨S2, ?_, ?_⟩
    · unfold updateInner
      rw [pathGet_eq P hp W hf S h2 (by omega)]
      simp only [Outcome.bind, e1, e2]
    · intro r c hr hc
      rw [g2 r c hr hc, g1 r c hr hc]
      by_cases hcx : c = x
      · subst hcx
        rw [g1 r i hr (by omega), if_neg (show ¬ (r = y ∧ i = c) by omega)]
        by_cases hry : r = y
        · subst hry
          simp [hnd.1]
        · simp [hry]
      · simp [hcx]

theorem updateOuter_eq (P : Pattern sz sp) (hp : IsPath sz sp path) (W : WsOK sz sp w)
    (hf : ∀ k, k < sz.length → path.getD k [] ≠ []) {i : Nat} :
    ∀ (xs : List Nat) (S : Store R), xs.Pairwise (· < ·) → (∀ x ∈ xs, i < x ∧ x < sz.sum) →
    (∀ x ∈ xs, ∀ y ∈ xs, x ≤ y → InPat sz sp y x) →
    ∃ S', updateOuter w path i xs S = .ok S' ∧ ∀ r c, r < sz.sum → c ≤ r →
      ent sz sp S' r c = if c ∈ xs ∧ r ∈ xs then ent sz sp S r c - ent sz sp S c i * ent sz sp S r i
        else ent sz sp S r c
  | [], S, _, _, _ => ⟨S, rfl, fun r c _ _ => by simp⟩
  | x :: xs, S, hs, h, hpat => by
    have hnd : (x :: xs).Nodup := SSorted.nodup hs
    have hs' := hs
    rw [List.pairwise_cons] at hs'
    have hx := h x (by simp)
    obtain ⟨S1, e1, g1⟩ := updateInner_eq P hp W hf hx.1 (-(ent sz sp S x i)) (x :: xs) S hnd (by
      intro y hy
      have hxy : x ≤ y := by
        rcases List.mem_cons.1 hy with rfl | hy
        · exact le_rfl
        · exact le_of_lt (hs'.1 y hy)
      exact ⟨hxy, (h y hy).2, hpat x (by simp) y hy hxy⟩)
    obtain ⟨S2, e2, g2⟩ := updateOuter_eq P hp W hf (i := i) xs S1 hs'.2
      (fun y hy => h y (List.mem_cons_of_mem _ hy))
      (fun a ha b hb => hpat a (List.mem_cons_of_mem _ ha) b (List.mem_cons_of_mem _ hb))
    refine ⟨S2, ?_, ?_⟩
    · unfold updateOuter
      rw [pathGet_eq P hp W hf S hx.2 (by omega)]
      simp only [Outcome.bind, e1, e2]
    · intro r c hr hc
      rw [g2 r c hr hc]
      have hcol : ∀ a, a ∈ x :: xs → ent sz sp S1 a i = ent sz sp S a i := by
        intro a ha
        have := h a ha
        rw [g1 a i this.2 (by omega), if_neg (by omega)]
      by_cases hcx : c ∈ xs ∧ r ∈ xs
      · rw [if_pos hcx, if_pos ⟨List.mem_cons_of_mem _ hcx.1, List.mem_cons_of_mem _ hcx.2⟩,
          hcol c (List.mem_cons_of_mem _ hcx.1), hcol r (List.mem_cons_of_mem _ hcx.2),
          g1 r c hr hc, if_neg]
        rintro ⟨rfl, _⟩
        have := hs'.1 _ hcx.1; omega
      · rw [if_neg hcx, g1 r c hr hc]
        by_cases hc' : c = x
        · subst hc'
          by_cases hr' : r ∈ c :: xs
          · rw [if_pos ⟨rfl, hr'⟩, if_pos ⟨by simp, hr'⟩]; ring
          · rw [if_neg (fun e => hr' e.2), if_neg (fun e => hr' e.2)]
        · rw [if_neg (fun e => hc' e.1), if_neg]
          rintro ⟨h1, h2⟩
          have h1' : c ∈ xs := by
            rcases List.mem_cons.1 h1 with h1 | h1
            · exact absurd h1 hc'
            · exact h1
          rcases List.mem_cons.1 h2 with rfl | h2
          · have := hs'.1 c h1'; omega
          · exact hcx ⟨h1', h2⟩

end Update

/-! ### The current column -/

/-- The members of `TriangularMatrixColumnOperations` at column `i` of block `b`. -/
def colAt (sz : List Nat) (b i : Nat) : Col :=
  ⟨b, sz.getD b 0 - (i - start sz b), i, i - start sz b⟩

theorem colAt_rows_mem (P : Pattern sz sp) (W : WsOK sz sp w) {b i : Nat} (hb : InBlock sz b i) {r : Nat} :
    r ∈ (colAt sz b i).rows w ↔ i < r ∧ (InBlock sz b r ∨ r ∈ sp.getD b []) := by
  unfold Col.rows colAt
  simp only [List.mem_append, List.mem_map, List.mem_range', W.sep_eq]
  have h1 := hb.2.1
  have h2 := hb.2.2
  have h3 := start_succ' hb.1
  constructor
  · rintro (⟨a, ⟨k, hk, rfl⟩, rfl⟩ | h)
    · exact ⟨by omega, .inl ⟨hb.1, by omega, by omega⟩⟩
    · have := (P.sep_not_own h).1
      exact ⟨by omega, .inr h⟩
  · rintro ⟨h4, h5 | h5⟩
    · have := h5.2.2
      exact .inl ⟨r - i, ⟨r - i - 1, by omega, by omega⟩, by omega⟩
    · exact .inr h5

theorem colAt_rows_sorted (P : Pattern sz sp) (W : WsOK sz sp w) {b i : Nat} (hb : InBlock sz b i) :
    ((colAt sz b i).rows w).Pairwise (· < ·) := by
  unfold Col.rows colAt
  simp only [W.sep_eq]
  have h1 := hb.2.1
  have h2 := hb.2.2
  have h3 := start_succ' hb.1
  rw [List.pairwise_append]
  refine ⟨?_, P.sep_sorted b, ?_⟩
  · rw [List.pairwise_map]
    exact (List.pairwise_lt_range' (s := 1) (n := sz.getD b 0 - (i - start sz b) - 1)).imp
      (fun {a b} h => by omega)
  · intro a ha c hc
    have := (P.sep_not_own hc).1
    simp only [List.mem_map, List.mem_range'] at ha
    obtain ⟨x, ⟨k, hk, rfl⟩, rfl⟩ := ha
    omega

theorem updateColumn_eq [DecidableEq R] (P : Pattern sz sp) (hp : IsPath sz sp path) (W : WsOK sz sp w)
    (hf : ∀ k, k < sz.length → path.getD k [] ≠ []) {b i : Nat} (hb : InBlock sz b i) (S : Store R) :
    ∃ S', updateOuter w path i ((colAt sz b i).rows w) S = .ok S' ∧ ∀ r c, r < sz.sum → c ≤ r →
      ent sz sp S' r c = if i < c then ent sz sp S r c - ent sz sp S c i * ent sz sp S r i
        else ent sz sp S r c := by
  obtain ⟨S', e, g⟩ := updateOuter_eq P hp W hf (i := i) ((colAt sz b i).rows w) S
    (colAt_rows_sorted P W hb)
    (by
      intro x hx
      rw [colAt_rows_mem P W hb] at hx
      refine ⟨hx.1, ?_⟩
      rcases hx.2 with h | h
      · exact h.lt_sum
      · exact (P.sep_not_own h).2)
    (by
      intro x hx y hy hxy
      rw [colAt_rows_mem P W hb] at hx hy
      rcases hx.2 with h | h
      · exact ⟨b, h, hy.2⟩
      · obtain ⟨o, ho⟩ := exists_block sz (P.sep_not_own h).2
        rcases hy.2 with h' | h'
        · exfalso
          have := (P.sep_not_own h).1
          have := h'.2.2
          omega
        · exact ⟨o, ho, P.closed' h h' hxy ho⟩)
  refine ⟨S', e, ?_⟩
  intro r c hr hc
  rw [g r c hr hc]
  have key : ∀ a, i < a → a < sz.sum → a ∉ (colAt sz b i).rows w → ent sz sp S a i = 0 := by
    intro a h1 h2 h3
    rw [colAt_rows_mem P W hb] at h3
    apply full_zero _ _ hb
    · exact fun h => h3 ⟨h1, .inl h⟩
    · exact fun h => h3 ⟨h1, .inr h⟩
  by_cases hic : i < c
  · rw [if_pos hic]
    by_cases h : c ∈ (colAt sz b i).rows w ∧ r ∈ (colAt sz b i).rows w
    · rw [if_pos h]
    · rw [if_neg h]
      by_cases h1 : c ∈ (colAt sz b i).rows w
      · rw [key r (by omega) hr (fun h2 => h ⟨h1, h2⟩)]; ring
      · rw [key c hic (by omega) h1]; ring
  · rw [if_neg hic, if_neg]
    rintro ⟨h1, _⟩
    rw [colAt_rows_mem P W hb] at h1
    omega

theorem diagonal_eq (W : WsOK sz sp w) {b i : Nat} (hb : InBlock sz b i) (S : Store R) :
    (colAt sz b i).diagonal w S = .ok (ent sz sp S i i) := by
  unfold Col.diagonal colAt
  simp only [W.size_eq]
  rw [if_pos hb.sub_lt]
  unfold ent
  rw [full_diag hb hb]

theorem rescale_eq (P : Pattern sz sp) (W : WsOK sz sp w) {b i : Nat} (hb : InBlock sz b i) (S : Store R)
    (s : R) :
    ∃ S', (colAt sz b i).rescale w S s = .ok S' ∧ ∀ r c, c < sz.sum →
      ent sz sp S' r c = if c = i then ent sz sp S r c * s else ent sz sp S r c := by
  unfold Col.rescale colAt
  simp only [W.size_eq]
  rw [if_pos hb.sub_lt]
  refine ⟨_, rfl, ?_⟩
  intro r c hc
  obtain ⟨k, hk⟩ := exists_block sz hc
  have hiff : (k = b ∧ c - start sz k = i - start sz b) ↔ c = i := by
    constructor
    · rintro ⟨rfl, h⟩
      have := hk.2.1; have := hb.2.1; omega
    · rintro rfl
      have := hk.unique hb
      subst this
      exact ⟨rfl, rfl⟩
  by_cases h1 : InBlock sz k r
  · unfold ent
    rw [full_diag h1 hk, full_diag h1 hk]
    simp only [hiff]
  · by_cases h2 : r ∈ sp.getD k []
    · unfold ent
      rw [full_off P h2 hk, full_off P h2 hk]
      simp only [hiff]
    · unfold ent
      rw [full_zero h1 h2 hk, full_zero h1 h2 hk]
      simp

theorem normalize_eq (P : Pattern sz sp) (W : WsOK sz sp w) {b i : Nat} (hb : InBlock sz b i) (sqrt : R → R)
    (S : Store R) :
    ∃ S', normalize sqrt w S (colAt sz b i) = .ok (S', colAt sz b i) ∧ ∀ r c, c < sz.sum →
      ent sz sp S' r c =
        if c = i then ent sz sp S r c * (1 / sqrt (ent sz sp S i i)) else ent sz sp S r c := by
  obtain ⟨S', e, g⟩ := rescale_eq P W hb S (1 / sqrt (ent sz sp S i i))
  refine ⟨S', ?_, g⟩
  unfold normalize
  rw [diagonal_eq W hb]
  simp only [Outcome.bind, e]

/-- No empty block precedes a column. -/
def NoGap (sz : List Nat) : Prop := ∀ k k' v, InBlock sz k' v → k ≤ k' → 0 < sz.getD k 0

theorem sizes_getElem {k : Nat} (hk : k < sz.length) : sz[k]? = some (sz.getD k 0) := by
  rw [List.getElem?_eq_getElem hk, List.getD_eq_getElem?_getD, List.getElem?_eq_getElem hk]; rfl

theorem inBlock_zero (hg : NoGap sz) (hN : 0 < sz.sum) : InBlock sz 0 0 := by
  obtain ⟨b, hb⟩ := exists_block sz hN
  have := hg 0 b 0 hb (by omega)
  have h0 : 0 < sz.length := by have := hb.1; omega
  exact ⟨h0, by simp [start], by rw [start_succ' h0]; omega⟩

theorem init_eq (W : WsOK sz sp w) (hb : InBlock sz 0 0) : Col.init w = .ok (colAt sz 0 0) := by
  unfold Col.init colAt
  rw [W.sizes, sizes_getElem hb.1]
  simp

theorem next_eq (W : WsOK sz sp w) (hg : NoGap sz) {b i : Nat} (hb : InBlock sz b i)
    (hi : i + 1 < sz.sum) :
    ∃ b', InBlock sz b' (i + 1) ∧ (colAt sz b i).next w = .ok (colAt sz b' (i + 1)) := by
  have h1 := hb.2.1
  have h2 := hb.2.2
  have h3 := start_succ' hb.1
  have hidx : (colAt sz b i).idx = b := rfl
  have hsc : (colAt sz b i).sc = i - start sz b := rfl
  unfold Col.next
  rw [W.sizes, hidx, sizes_getElem hb.1, hsc]
  simp only
  by_cases h : sz.getD b 0 ≤ i - start sz b + 1
  · rw [if_pos h]
    have hs : start sz (b + 1) = i + 1 := by omega
    obtain ⟨k, hk⟩ := exists_block sz hi
    have hbk : b < k := by
      by_contra hc
      have := start_mono sz (show k + 1 ≤ b + 1 by omega)
      have := hk.2.2
      omega
    have hl : b + 1 < sz.length := by have := hk.1; omega
    have hp := hg (b + 1) k _ hk (by omega)
    have hb' : InBlock sz (b + 1) (i + 1) := ⟨hl, by omega, by rw [start_succ' hl]; omega⟩
    refine ⟨b + 1, hb', ?_⟩
    rw [sizes_getElem hl]
    simp [hs, colAt]
  · rw [if_neg h]
    refine ⟨b, ⟨hb.1, by omega, by omega⟩, ?_⟩
    simp only [colAt, Outcome.ok.injEq, Col.mk.injEq, true_and]
    omega

/-! ### The factorisation -/

section Chol

variable [DecidableEq R]

/-- What the loop has computed after column `i`: `A` is the stored matrix, `M` the given one. -/
def CholUpTo (sqrt : R → R) (M A : Nat → Nat → R) (N i : Nat) : Prop :=
  (∀ r c, c ≤ i → c ≤ r → r < N →
    A r c = (M r c - ∑ q ∈ range c, A r q * A c q) *
      (1 / sqrt (M c c - ∑ q ∈ range c, A c q * A c q))) ∧
  (∀ r c, i < c → c ≤ r → r < N → A r c = M r c - ∑ q ∈ range i, A r q * A c q)

theorem colCholLoop_eq (P : Pattern sz sp) (hp : IsPath sz sp path) (W : WsOK sz sp w)
    (hf : ∀ k, k < sz.length → path.getD k [] ≠ []) (hg : NoGap sz) (sqrt : R → R) (S : Store R) :
    ∀ i, i < sz.sum → ∃ S' b, InBlock sz b i ∧ colCholLoop sqrt w path S i = .ok (S', colAt sz b i) ∧
      CholUpTo sqrt (ent sz sp S) (ent sz sp S') sz.sum i
  | 0, hi => by
    have hb := inBlock_zero hg hi
    obtain ⟨S', e, g⟩ := normalize_eq P W hb sqrt S
    refine ⟨S', 0, hb, ?_, ?_, ?_⟩
    · unfold colCholLoop
      rw [init_eq W hb]
      simp only [Outcome.bind, e]
    · intro r c hc hcr hr
      have hc0 : c = 0 := by omega
      subst hc0
      rw [g r 0 hi, if_pos rfl]
      simp
    · intro r c hc hcr hr
      rw [g r c (by omega), if_neg (by omega)]
      simp
  | i + 1, hi => by
    obtain ⟨S0, b, hb, e0, c1, c2⟩ := colCholLoop_eq P hp W hf hg sqrt S i (by omega)
    obtain ⟨S1, e1, g1⟩ := updateColumn_eq P hp W hf hb S0
    obtain ⟨b', hb', e2⟩ := next_eq W hg hb hi
    obtain ⟨S2, e3, g3⟩ := normalize_eq P W hb' sqrt S1
    refine ⟨S2, b', hb', ?_, ?_⟩
    · unfold colCholLoop
      rw [e0]
      simp only [Outcome.bind, e1, e2, e3]
    -- columns up to i are as before
    have old : ∀ r c, r < sz.sum → c ≤ r → c ≤ i → ent sz sp S2 r c = ent sz sp S0 r c := by
      intro r c hr hc hci
      rw [g3 r c (by omega), if_neg (by omega), g1 r c hr hc, if_neg (by omega)]
    -- the later columns after the update
    have new : ∀ r c, i < c → c ≤ r → r < sz.sum → ent sz sp S1 r c =
        ent sz sp S r c - ∑ q ∈ range (i + 1), ent sz sp S2 r q * ent sz sp S2 c q := by
      intro r c hc hcr hr
      rw [g1 r c hr hcr, if_pos hc, c2 r c hc hcr hr, sum_range_succ, old r i hr (by omega) le_rfl,
        old c i (by omega) (by omega) le_rfl]
      have : ∑ q ∈ range i, ent sz sp S2 r q * ent sz sp S2 c q =
          ∑ q ∈ range i, ent sz sp S0 r q * ent sz sp S0 c q := by
        refine sum_congr rfl fun q hq => ?_
        have := mem_range.1 hq
        rw [old r q hr (by omega) (by omega), old c q (by omega) (by omega) (by omega)]
      rw [this]
      ring
    constructor
    · intro r c hc hcr hr
      by_cases hci : c ≤ i
      · have sums : ∀ a, c ≤ a → a < sz.sum → ∑ q ∈ range c, ent sz sp S2 a q * ent sz sp S2 c q =
            ∑ q ∈ range c, ent sz sp S0 a q * ent sz sp S0 c q := by
          intro a ha ha'
          refine sum_congr rfl fun q hq => ?_
          have := mem_range.1 hq
          rw [old a q ha' (by omega) (by omega), old c q (by omega) (by omega) (by omega)]
        rw [old r c hr hcr hci, sums r hcr hr, sums c le_rfl (by omega)]
        exact c1 r c hci hcr hr
      · have hc' : c = i + 1 := by omega
        subst hc'
        rw [g3 r (i + 1) (by omega), if_pos rfl, new r (i + 1) (by omega) hcr hr,
          new (i + 1) (i + 1) (by omega) le_rfl (by omega)]
    · intro r c hc hcr hr
      rw [g3 r c (by omega), if_neg (by omega), new r c (by omega) hcr hr]

theorem columnCholesky_eq (P : Pattern sz sp) (hp : IsPath sz sp path) (W : WsOK sz sp w)
    (hf : ∀ k, k < sz.length → path.getD k [] ≠ []) (hg : NoGap sz) (hN : 0 < sz.sum) (sqrt : R → R)
    (S : Store R) :
    ∃ S', columnCholesky sqrt w path S = .ok S' ∧
      CholUpTo sqrt (ent sz sp S) (ent sz sp S') sz.sum (sz.sum - 1) := by
  obtain ⟨S', b, _, e, h⟩ := colCholLoop_eq P hp W hf hg sqrt S (sz.sum - 1) (by omega)
  refine ⟨S', ?_, h⟩
  unfold columnCholesky
  rw [W.N, e]
  rfl

end Chol

end Verif.Sup
