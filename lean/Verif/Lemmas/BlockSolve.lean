import Verif.Lemmas.BlockFactor

/-!
# The block factorisations solve the system
-/

namespace Verif.Sup

open Finset Spec Verif.Dense Dense.Spec

variable {R : Type} [Field R] {sz : List Nat} {sp : List (List Nat)}

theorem sepCells_facts (P : Pattern sz sp) {path : List (List Nat)} (hp : IsPath sz sp path)
    (hne : sz ≠ []) {w : Workspace} (hw : workspaceInit path sz = .ok w) {k : Nat}
    (hk : k < sz.length) :
    ∃ cells, w.sepCells k = .ok cells ∧ cells.map (coord sz sp) = lowerPairs (sp.getD k []) ∧
      ∀ a ∈ cells, Valid sz sp a := by
  obtain ⟨w', hw', h⟩ := C17_separator_cells sz sp path P hp hne
  rw [hw] at hw'
  simp only [Outcome.ok.injEq] at hw'
  subst hw'
  have hk' : k < sp.length := by rw [P.len]; exact hk
  have hs : sp[k]? = some (sp.getD k []) := by
    rw [List.getD_eq_getElem?_getD, List.getElem?_eq_getElem hk']; rfl
  exact h k _ hs

theorem subtract_facts (P : Pattern sz sp) {k : Nat} {cells : List Cell}
    (hc : cells.map (coord sz sp) = lowerPairs (sp.getD k [])) (hv : ∀ a ∈ cells, Valid sz sp a)
    (val : Nat → Nat → R) (S : Store R) :
    (∀ a : Cell, a.block ≤ k → subtractProducts cells (sp.getD k []).length val S a = S a) ∧
    (∀ a, Valid sz sp a → start sz (k + 1) ≤ (coord sz sp a).2 →
      (coord sz sp a).2 ≤ (coord sz sp a).1 →
      subtractProducts cells (sp.getD k []).length val S a =
        if (coord sz sp a).1 ∈ sp.getD k [] ∧ (coord sz sp a).2 ∈ sp.getD k [] then
          S a - val ((sp.getD k []).idxOf (coord sz sp a).2)
            ((sp.getD k []).idxOf (coord sz sp a).1) else S a) := by
  have hs := P.sep_sorted k
  have hcells : ∀ a ∈ cells, (coord sz sp a).1 ∈ sp.getD k [] ∧ (coord sz sp a).2 ∈ sp.getD k [] := by
    intro a ha
    have := List.mem_map_of_mem (f := coord sz sp) ha
    rw [hc] at this
    exact mem_lowerPairs this
  constructor
  · intro a ha
    rw [subtractProducts_apply hs hc, if_neg]
    intro hm
    have h1 := (P.sep_not_own (hcells a hm).2).1
    have h2 := (valid_block (hv a hm)).2.2
    have := start_mono sz (show a.block + 1 ≤ k + 1 by omega)
    omega
  · intro a ha _ hle
    rw [subtractProducts_apply hs hc]
    refine if_congr ⟨fun h => hcells a h, fun h => ?_⟩ rfl rfl
    have := mem_lowerPairs_of hs h.1 h.2 hle
    rw [← hc, List.mem_map] at this
    obtain ⟨b, hb, hbe⟩ := this
    rw [valid_cell_inj P ha (hv b hb) hbe.symm]
    exact hb

/-- The lower triangle of diagonal block `k`. -/
def lo (S : Store R) (k r c : Nat) : R := if c ≤ r then S (.diag k r c) else 0

theorem cholStep_spec (P : Pattern sz sp) {path : List (List Nat)} (hp : IsPath sz sp path)
    (hne : sz ≠ []) {w : Workspace} (hw : workspaceInit path sz = .ok w) (W : WsOK sz sp w)
    {llt : Nat → (Nat → Nat → R) → Option (Nat → Nat → R)} (hllt : LltContract llt) {k : Nat}
    (hk : k < sz.length) {S S' : Store R} (h : cholStep llt w k S = .ok (some S')) :
    (∀ r, r < sz.getD k 0 → S' (.diag k r r) ≠ 0) ∧
    (∀ r c, c ≤ r → r < sz.getD k 0 →
      ∑ l ∈ range (sz.getD k 0), lo S' k r l * 1 * lo S' k c l = S (.diag k r c)) ∧
    (∀ r c, r < sz.getD k 0 → c < (sp.getD k []).length →
      ∑ l ∈ range (sz.getD k 0), lo S' k r l * 1 * S' (.off k l c) = S (.off k r c)) ∧
    (∀ a, Valid sz sp a → start sz (k + 1) ≤ (coord sz sp a).2 →
      (coord sz sp a).2 ≤ (coord sz sp a).1 →
      S' a = if (coord sz sp a).1 ∈ sp.getD k [] ∧ (coord sz sp a).2 ∈ sp.getD k [] then
        S a - ∑ l ∈ range (sz.getD k 0),
          1 * S' (.off k l ((sp.getD k []).idxOf (coord sz sp a).2)) *
          S' (.off k l ((sp.getD k []).idxOf (coord sz sp a).1)) else S a) ∧
    (∀ a : Cell, a.block < k → S' a = S a) := by
  have hlater : ∀ a, Valid sz sp a → start sz (k + 1) ≤ (coord sz sp a).2 → k < a.block := by
    intro a ha h1
    have h2 := (valid_block ha).2.2
    by_contra hcon
    have := start_mono sz (show a.block + 1 ≤ k + 1 by omega)
    omega
  unfold cholStep at h
  simp only [W.size_eq, W.sep_eq] at h
  by_cases hn : sz.getD k 0 = 0
  · rw [if_pos hn] at h
    simp only [Outcome.ok.injEq, Option.some.injEq] at h
    subst h
    rw [hn]
    refine ⟨by simp, by simp, by simp, ?_, fun _ _ => rfl⟩
    intro a _ _ _
    simp
  rw [if_neg hn] at h
  generalize hL : llt (sz.getD k 0) (diagOf S k) = o at h
  cases o with
  | none => simp at h
  | some L =>
    obtain ⟨c1, c2, c3⟩ := hllt _ _ _ hL
    simp only at h
    have hd1 : ∀ r c, r < sz.getD k 0 → c ≤ r → setDiagLower S k (sz.getD k 0) L (.diag k r c) = L r c := by
      intro r c hr hc
      simp only [setDiagLower]
      rw [if_pos ⟨trivial, hr, hc⟩]
    have hd2 : ∀ a : Cell, a.block ≠ k → setDiagLower S k (sz.getD k 0) L a = S a := by
      intro a ha
      cases a with
      | diag k' r c => simp only [setDiagLower]; rw [if_neg]; rintro ⟨rfl, _⟩; exact ha rfl
      | off k' r c => rfl
    have hlo : ∀ T : Store R, (∀ r c, r < sz.getD k 0 → c ≤ r → T (.diag k r c) = L r c) →
        ∀ r l, r < sz.getD k 0 → lo T k r l = L r l := by
      intro T hT r l hr
      unfold lo
      split_ifs with hlr
      · exact hT r l hr hlr
      · exact (c2 r l hr (by omega)).symm
    by_cases hm : (sp.getD k []).length = 0
    · rw [if_pos hm] at h
      simp only [Outcome.ok.injEq, Option.some.injEq] at h
      subst h
      refine ⟨?_, ?_, ?_, ?_, ?_⟩
      · intro r hr; rw [hd1 r r hr le_rfl]; exact c1 r hr
      · intro r c hcr hr
        rw [show S (.diag k r c) = diagOf S k r c from rfl, ← c3 r c hr hcr]
        refine sum_congr rfl fun l _ => ?_
        rw [hlo _ hd1 r l hr, hlo _ hd1 c l (by omega), mul_one]
      · intro r c _ hc; omega
      · intro a ha h1 _
        have hnil : sp.getD k [] = [] := List.length_eq_zero_iff.1 hm
        rw [hnil]
        simp only [List.not_mem_nil, false_and, if_false]
        exact hd2 a (by have := hlater a ha h1; omega)
      · intro a ha; exact hd2 a (by omega)
    · rw [if_neg hm] at h
      obtain ⟨cells, e1, e2, e3⟩ := sepCells_facts P hp hne hw hk
      rw [e1] at h
      simp only [Outcome.bind, Outcome.ok.injEq, Option.some.injEq] at h
      generalize hS1 : setDiagLower S k (sz.getD k 0) L = S1 at h hd1 hd2
      generalize hX : (fun r c => fsub L (sz.getD k 0) (fun r => S1 (.off k r c)) r) = X at h
      generalize hS2 : setOff S1 k (sz.getD k 0) (sp.getD k []).length X = S2 at h
      obtain ⟨f1, f2⟩ := subtract_facts P e2 e3
        (fun a b => ∑ r ∈ range (sz.getD k 0), X r a * X r b) S2
      have h : subtractProducts cells (sp.getD k []).length
          (fun a b => ∑ r ∈ range (sz.getD k 0), X r a * X r b) S2 = S' := by
        rw [← hX]; exact h
      rw [h] at f1 f2
      have hS2o : ∀ a : Cell, a.block ≠ k → S2 a = S a := by
        intro a ha
        rw [← hd2 a ha, ← hS2]
        cases a with
        | diag k' r c => rfl
        | off k' r c => simp only [setOff]; rw [if_neg]; rintro ⟨rfl, _⟩; exact ha rfl
      have hdiag : ∀ r c, r < sz.getD k 0 → c ≤ r → S' (.diag k r c) = L r c := by
        intro r c hr hc
        rw [f1 _ (by simp [Cell.block]), ← hS2]
        exact hd1 r c hr hc
      have hoff : ∀ r c, r < sz.getD k 0 → c < (sp.getD k []).length →
          S' (.off k r c) = X r c := by
        intro r c hr hc
        rw [f1 _ (by simp [Cell.block]), ← hS2]
        simp only [setOff, true_and]
        rw [if_pos ⟨hr, hc⟩]
      refine ⟨?_, ?_, ?_, ?_, ?_⟩
      · intro r hr; rw [hdiag r r hr le_rfl]; exact c1 r hr
      · intro r c hcr hr
        rw [show S (.diag k r c) = diagOf S k r c from rfl, ← c3 r c hr hcr]
        refine sum_congr rfl fun l _ => ?_
        rw [hlo _ hdiag r l hr, hlo _ hdiag c l (by omega), mul_one]
      · intro r c hr hc
        have := fsub_full L (sz.getD k 0) (fun r => S1 (.off k r c)) c1 c2 r hr
        have e : S1 (.off k r c) = S (.off k r c) := by rw [← hS1]; rfl
        rw [← e, ← this]
        refine sum_congr rfl fun l hl => ?_
        rw [hlo _ hdiag r l hr, hoff l c (mem_range.1 hl) hc, mul_one, ← hX]
      · intro a ha h1 h2
        rw [f2 a ha h1 h2, hS2o a (by have := hlater a ha h1; omega)]
        split_ifs with hmem
        · congr 1
          refine sum_congr rfl fun l hl => ?_
          rw [hoff l _ (mem_range.1 hl) (List.idxOf_lt_length_of_mem hmem.1),
            hoff l _ (mem_range.1 hl) (List.idxOf_lt_length_of_mem hmem.2), one_mul]
        · rfl
      · intro a ha
        rw [f1 a (by omega), hS2o a (by omega)]

theorem cholLoop_steps {llt : Nat → (Nat → Nat → R) → Option (Nat → Nat → R)} {w : Workspace}
    {S : Store R} : ∀ (n : Nat) (S' : Store R), cholLoop llt w S n = .ok (some S') →
    ∃ T : Nat → Store R, T 0 = S ∧ T n = S' ∧
      ∀ k, k < n → cholStep llt w k (T k) = .ok (some (T (k + 1)))
  | 0, S', h => by
    simp only [cholLoop, Outcome.ok.injEq, Option.some.injEq] at h
    exact ⟨fun _ => S, rfl, h, by omega⟩
  | n + 1, S', h => by
    rw [cholLoop] at h
    generalize ho : cholLoop llt w S n = o at h
    match o, h with
    | .ok none, h => simp [Outcome.bind] at h
    | .ok (some S1), h =>
      simp only [Outcome.bind] at h
      obtain ⟨T, t1, t2, t3⟩ := cholLoop_steps n S1 ho
      refine ⟨fun k => if k ≤ n then T k else S', by simp [t1], by simp, ?_⟩
      intro k hk
      simp only
      rw [if_pos (by omega)]
      by_cases hkn : k < n
      · rw [if_pos (by omega)]; exact t3 k hkn
      · have : k = n := by omega
        subst this
        rw [if_neg (by omega), t2]; exact h
    | .throws, h => simp [Outcome.bind] at h
    | .ub, h => simp [Outcome.bind] at h
    | .diverges, h => simp [Outcome.bind] at h

/-- Finished blocks are not written any more. -/
theorem keep_blocks {n : Nat} {T : Nat → Store R}
    (h : ∀ k, k < n → ∀ a : Cell, a.block < k → T (k + 1) a = T k a) {k : Nat} {a : Cell}
    (ha : a.block = k) : ∀ m, k + 1 ≤ m → m ≤ n → T m a = T (k + 1) a := by
  intro m
  induction m with
  | zero => intro h; omega
  | succ m ih =>
    intro h1 h2
    by_cases hm : k + 1 ≤ m
    · rw [h m (by omega) a (by omega)]
      exact ih hm (by omega)
    · have : m = k := by omega
      subst this; rfl

theorem forwardStep_spec (P : Pattern sz sp) {w : Workspace} (W : WsOK sz sp w) {S : Store R}
    {k : Nat} (hk : k < sz.length) (hd : ∀ r, r < sz.getD k 0 → S (.diag k r r) ≠ 0) (y : Nat → R) :
    ∃ z : Nat → R,
    (∀ r, r < sz.getD k 0 → ∑ c ∈ range (sz.getD k 0), lo S k r c * z c = y (start sz k + r)) ∧
    ∀ v, forwardStep w S k y v =
      if v ∈ sp.getD k [] then
        setSeg y (start sz k) (sz.getD k 0) z v -
          ∑ r ∈ range (sz.getD k 0), S (.off k r ((sp.getD k []).idxOf v)) * z r
      else setSeg y (start sz k) (sz.getD k 0) z v := by
  refine ⟨fsub (diagOf S k) (sz.getD k 0) (fun r => y (start sz k + r)), ?_, ?_⟩
  · intro r hr
    have e := fsub_full (lo S k) (sz.getD k 0) (fun r => y (start sz k + r))
      (fun r hr => by unfold lo; rw [if_pos le_rfl]; exact hd r hr)
      (fun r c _ h => by unfold lo; rw [if_neg (by omega)]) r hr
    rw [← e]
    refine sum_congr rfl fun c hc => ?_
    congr 1
    exact fsub_congr _ _ _ (fun r c _ h => by unfold lo diagOf; rw [if_pos h]) _ _ (fun _ _ => rfl)
      c (mem_range.1 hc)
  · intro v
    unfold forwardStep
    simp only [W.size_eq, W.sep_eq, W.fwdStart_eq k (by omega), W.sizes]
    by_cases hn : sz.getD k 0 = 0
    · rw [if_pos hn, hn]
      simp only [range_zero, sum_empty, sub_zero, ite_self]
      rw [setSeg_out]; omega
    rw [if_neg hn]
    by_cases hlast : k + 1 = sz.length
    · rw [if_pos hlast]
      have : v ∉ sp.getD k [] := fun h => by
        have := P.sep_not_own h
        rw [hlast, start_of_ge _ le_rfl] at this
        omega
      rw [if_neg this]
    rw [if_neg hlast]
    by_cases hm : (sp.getD k []).length = 0
    · rw [if_pos hm]
      have hnil : sp.getD k [] = [] := List.length_eq_zero_iff.1 hm
      rw [hnil]
      simp
    · rw [if_neg hm, subSep_apply P W]
      split_ifs
      · congr 1
        refine sum_congr rfl fun r hr => ?_
        rw [setSeg_in _ _ (mem_range.1 hr)]
      · rfl

theorem backwardStep_spec (P : Pattern sz sp) {w : Workspace} (W : WsOK sz sp w) {S : Store R}
    (G : Nat → Nat → Nat → R) {F : Nat → Nat → R}
    (hF : full sz sp G (fun b r c => S (.off b r c)) = F)
    {k : Nat} (hk : k < sz.length) (hd : ∀ r, r < sz.getD k 0 → S (.diag k r r) ≠ 0) (y : Nat → R) :
    ∃ x : Nat → R,
    (∀ c, c < sz.getD k 0 → ∑ r ∈ range (sz.getD k 0), lo S k r c * x r = y (start sz k + c)) ∧
    (∀ v, start sz k ≤ v → backwardStep w S k y v = setSeg y (start sz k) (sz.getD k 0) x v) ∧
    (∀ v, v < start sz k → backwardStep w S k y v = y v -
      ∑ r ∈ range (sz.getD k 0), F (start sz k + r) v * x r) := by
  refine ⟨bsub (diagOf S k) (sz.getD k 0) (fun r => y (start sz k + r)), ?_, ?_⟩
  · intro c hc
    have e := bsub_full (lo S k) (sz.getD k 0) (fun r => y (start sz k + r))
      (fun r hr => by unfold lo; rw [if_pos le_rfl]; exact hd r hr)
      (fun r c _ h => by unfold lo; rw [if_neg (by omega)]) c hc
    rw [← e]
    refine sum_congr rfl fun r hr => ?_
    congr 1
    exact bsub_congr _ _ _ (fun r c _ h => by unfold lo diagOf; rw [if_pos h]) _ _ (fun _ _ => rfl)
      r (mem_range.1 hr)
  · unfold backwardStep
    simp only [W.size_eq, W.bwdAt_eq hk]
    by_cases hn : sz.getD k 0 = 0
    · simp only [hn, if_true]
      refine ⟨fun v hv => ?_, fun v _ => by simp⟩
      rw [setSeg_out]; omega
    simp only [hn, if_false]
    cases k with
    | zero =>
      refine ⟨fun v _ => rfl, fun v hv => ?_⟩
      rw [start_zero] at hv; omega
    | succ b =>
      simp only
      constructor
      · intro v hv
        rw [(residLoop_full P W G _ _ hk v).1 hv]
      · intro v hv
        rw [(residLoop_full P W G _ _ hk v).2 hv, setSeg_out _ _ (.inl hv), hF]

theorem backwardLoop_eq (w : Workspace) (S : Store R) (b : Nat → R) (k : Nat)
    (hk : k < w.sizes.length) :
    backwardLoop w S b (w.sizes.length - k) =
      backwardStep w S k (backwardLoop w S b (w.sizes.length - (k + 1))) := by
  rw [show w.sizes.length - k = (w.sizes.length - (k + 1)) + 1 by omega, backwardLoop]
  congr 1
  omega

/-- Cholesky: the factor of the whole matrix. -/
theorem cholesky_main (P : Pattern sz sp) {path : List (List Nat)} (hp : IsPath sz sp path)
    (hne : sz ≠ []) {w : Workspace} (hw : workspaceInit path sz = .ok w) (W : WsOK sz sp w)
    {llt : Nat → (Nat → Nat → R) → Option (Nat → Nat → R)} (hllt : LltContract llt)
    {S S' : Store R} (h : blockCholesky llt w S = .ok (some S')) (b : Nat → R) :
    ∀ i, i < sz.sum →
      ∑ j ∈ range sz.sum, ent sz sp S (max i j) (min i j) * solveCholesky w S' b j = b i := by
  unfold blockCholesky at h
  rw [W.sizes] at h
  obtain ⟨T, t1, t2, t3⟩ := cholLoop_steps _ _ h
  have hspec := fun k hk => cholStep_spec P hp hne hw W hllt (k := k) hk (t3 k hk)
  have hkeep : ∀ k, k < sz.length → ∀ a : Cell, a.block = k → T (k + 1) a = S' a := by
    intro k hk a ha
    rw [← t2]
    exact (keep_blocks (fun k hk => (hspec k hk).2.2.2.2) ha sz.length (by omega) le_rfl).symm
  have hlo : ∀ k, k < sz.length → lo (T (k + 1)) k = lo S' k := by
    intro k hk
    funext r c
    unfold lo
    rw [hkeep k hk _ rfl]
  have hoff : ∀ k, k < sz.length → ∀ r c, T (k + 1) (.off k r c) = S' (.off k r c) :=
    fun k hk r c => hkeep k hk _ rfl
  have hd : ∀ k, k < sz.length → ∀ r, r < sz.getD k 0 → S' (.diag k r r) ≠ 0 := by
    intro k hk r hr
    rw [← hkeep k hk _ rfl]
    exact (hspec k hk).1 r hr
  generalize hF : full sz sp (fun b => lo S' b) (fun b r c => S' (.off b r c)) = F
  have hC : ∀ k, ColsOK sz sp k F (lo S' k) (fun r c => S' (.off k r c)) := fun k => by
    rw [← hF]; exact colsOK_full P _ _ k
  have hN : start sz sz.length = sz.sum := start_of_ge _ le_rfl
  have hst : ∀ k, k < sz.length → start sz k ≤ start sz (k + 1) := fun k _ =>
    start_mono sz (by omega)
  have hz : ∀ k, k < sz.length → ∀ i j, i < start sz (k + 1) → start sz (k + 1) ≤ j → F i j = 0 := by
    rw [← hF]; exact fun k hk i j => full_upper P _ _ k hk i j
  -- factorisation
  have hfac : ∀ k, (hk : k < sz.length) → _ := fun k hk =>
    step_factor P hk (hC k) (S := T k) (S' := T (k + 1)) (D := fun _ => 1) (d := fun _ => 1)
      (fun _ _ => rfl)
      (by rw [← hlo k hk]; exact (hspec k hk).2.1)
      (by rw [← hlo k hk]; simp only [← hoff k hk]; exact (hspec k hk).2.2.1)
      (by simp only [← hoff k hk]; exact (hspec k hk).2.2.2.1)
  have hfactor := factor_abs (start sz) sz.length (start_zero sz) hst F (fun _ => 1) hz
    (fun k => ent sz sp (T k))
    (fun k hk i j h1 h2 h3 h4 => (hfac k hk).1 i j h1 h2 h3 (by omega))
    (fun k hk i j h1 h2 h3 => (hfac k hk).2 i j h1 h2 (by omega))
  simp only [hN, t1] at hfactor
  -- substitutions
  have hfw : ∀ k, (hk : k < sz.length) → _ := fun k hk =>
    step_forward P hk (hC k) (forwardStep_spec P W hk (hd k hk) (forwardLoop w S' b k)).choose_spec.1
      (forwardStep_spec P W hk (hd k hk) (forwardLoop w S' b k)).choose_spec.2
  have hforward := forward_abs (start sz) sz.length (start_zero sz) hst F hz
    (fun k => forwardLoop w S' b k)
    (fun k hk i hi => (hfw k hk).1 i hi)
    (fun k hk i h1 h2 => (hfw k hk).2.1 i h1 h2)
    (fun k hk i h1 _ => (hfw k hk).2.2 i h1)
  simp only [hN] at hforward
  generalize hy : forwardLoop w S' b sz.length = y at hforward
  have hbw : ∀ k, (hk : k < sz.length) → _ := fun k hk =>
    step_backward hk (hC k)
      (backwardStep_spec P W (fun b => lo S' b) hF hk (hd k hk)
        (backwardLoop w S' y (sz.length - (k + 1)))).choose_spec.1
      (backwardStep_spec P W (fun b => lo S' b) hF hk (hd k hk)
        (backwardLoop w S' y (sz.length - (k + 1)))).choose_spec.2.1
      (backwardStep_spec P W (fun b => lo S' b) hF hk (hd k hk)
        (backwardLoop w S' y (sz.length - (k + 1)))).choose_spec.2.2
  have hstep : ∀ k, k < sz.length → backwardLoop w S' y (sz.length - k) =
      backwardStep w S' k (backwardLoop w S' y (sz.length - (k + 1))) := by
    intro k hk
    have := backwardLoop_eq w S' y k (by rw [W.sizes]; exact hk)
    rwa [W.sizes] at this
  have hbackward := backward_abs (start sz) sz.length (start_zero sz) hst F hz
    (fun k => backwardLoop w S' y (sz.length - k))
    (fun k hk i h1 _ => by rw [hstep k hk]; exact (hbw k hk).1 i h1)
    (fun k hk i h1 h2 => by rw [hstep k hk]; exact (hbw k hk).2.1 i h1 h2)
    (fun k hk i h1 => by rw [hstep k hk]; exact (hbw k hk).2.2 i h1)
  simp only [hN, Nat.sub_self, Nat.sub_zero] at hbackward
  have hx : solveCholesky w S' b = backwardLoop w S' y sz.length := by
    unfold solveCholesky
    rw [W.sizes, hy]
  rw [hx]
  refine solve_abs sz.sum _ F (fun _ => 1) b y y _ ?_ hforward (fun i _ => one_mul _) hbackward
  intro i j hi hj
  rw [hfactor _ _ min_le_max (max_lt hi hj)]
  rcases le_total i j with hij | hij
  · rw [max_eq_right hij, min_eq_left hij]
    exact sum_congr rfl fun l _ => by ring
  · rw [max_eq_left hij, min_eq_right hij]

end Verif.Sup
