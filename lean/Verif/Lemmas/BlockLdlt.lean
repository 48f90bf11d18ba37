import Verif.Lemmas.BlockSolve

/-!
# The block LDLᵀ factorisation solves the system
-/

namespace Verif.Sup

open Finset Spec Verif.Dense

variable {R : Type} [Field R] [LinearOrder R] [IsStrictOrderedRing R] {sz : List Nat}
  {sp : List (List Nat)}

/-- The diagonal block of the factor: the rows of the unit lower triangle, permuted back. -/
def gOf (F : LdltStore R) (k r c : Nat) : R :=
  unitLower (diagOf F.S k) ((permOf (F.tr k)).symm r) c

theorem unitLower_congr {m m' : Nat → Nat → R} {n : Nat}
    (h : ∀ r c, r < n → c ≤ r → m r c = m' r c) (r c : Nat) (hr : r < n) :
    unitLower m r c = unitLower m' r c := by
  unfold unitLower
  split_ifs with h1 h2
  · exact h r c hr (by omega)
  · rfl
  · rfl

/-- The permutation of a block stays inside it. -/
def PermOK (n : Nat) (π : Equiv.Perm Nat) : Prop := ∀ i, i < n → π i < n ∧ π.symm i < n

theorem permOK_of {n : Nat} {π : Equiv.Perm Nat} (h1 : ∀ i, i < n → π i < n)
    (h2 : ∀ i, n ≤ i → π i = i) : PermOK n π := by
  intro i hi
  refine ⟨h1 i hi, ?_⟩
  by_contra hcon
  have := h2 (π.symm i) (by omega)
  rw [Equiv.apply_symm_apply] at this
  omega

theorem ldltBlock_spec (P : Pattern sz sp) {path : List (List Nat)} (hp : IsPath sz sp path)
    (hne : sz ≠ []) {w : Workspace} (hw : workspaceInit path sz = .ok w) (W : WsOK sz sp w) {k : Nat}
    (hk : k < sz.length) {F F' : LdltStore R} (h : ldltBlock w k F = .ok F') :
    (∀ r, r < sz.getD k 0 → F'.S (.diag k r r) ≠ 0) ∧
    PermOK (sz.getD k 0) (permOf (F'.tr k)) ∧
    (F'.reg = false → ∀ r c, c ≤ r → r < sz.getD k 0 →
      ∑ l ∈ range (sz.getD k 0), gOf F' k r l * F'.S (.diag k l l) * gOf F' k c l =
        F.S (.diag k r c)) ∧
    (∀ r c, r < sz.getD k 0 → c < (sp.getD k []).length →
      ∑ l ∈ range (sz.getD k 0), gOf F' k r l * F'.S (.diag k l l) * F'.S (.off k l c) =
        F.S (.off k r c)) ∧
    (∀ a, Valid sz sp a → start sz (k + 1) ≤ (coord sz sp a).2 →
      (coord sz sp a).2 ≤ (coord sz sp a).1 →
      F'.S a = if (coord sz sp a).1 ∈ sp.getD k [] ∧ (coord sz sp a).2 ∈ sp.getD k [] then
        F.S a - ∑ l ∈ range (sz.getD k 0), F'.S (.diag k l l) *
          F'.S (.off k l ((sp.getD k []).idxOf (coord sz sp a).2)) *
          F'.S (.off k l ((sp.getD k []).idxOf (coord sz sp a).1)) else F.S a) ∧
    (∀ a : Cell, a.block < k → F'.S a = F.S a) ∧ (∀ j, j ≠ k → F'.tr j = F.tr j) ∧
    (F'.reg = false → F.reg = false) := by
  have hlater : ∀ a, Valid sz sp a → start sz (k + 1) ≤ (coord sz sp a).2 → k < a.block := by
    intro a ha h1
    have h2 := (valid_block ha).2.2
    by_contra hcon
    have := start_mono sz (show a.block + 1 ≤ k + 1 by omega)
    omega
  unfold ldltBlock at h
  simp only [W.size_eq, W.sep_eq] at h
  generalize hf : ldlt (sz.getD k 0) (diagOf F.S k) = o at h
  match o, h with
  | .throws, h => simp [Outcome.bind] at h
  | .ub, h => simp [Outcome.bind] at h
  | .diverges, h => simp [Outcome.bind] at h
  | .ok f, h =>
    obtain ⟨hpos, p1, p2, p3, p4, _⟩ := ldlt_spec hf
    have hperm := permOK_of p1 p2
    simp only [Outcome.bind] at h
    have hd1 : ∀ r c, r < sz.getD k 0 → c ≤ r →
        setDiagLower F.S k (sz.getD k 0) f.mat (.diag k r c) = f.mat r c := by
      intro r c hr hc
      simp only [setDiagLower]
      rw [if_pos ⟨trivial, hr, hc⟩]
    have hd2 : ∀ a : Cell, a.block ≠ k → setDiagLower F.S k (sz.getD k 0) f.mat a = F.S a := by
      intro a ha
      cases a with
      | diag k' r c => simp only [setDiagLower]; rw [if_neg]; rintro ⟨rfl, _⟩; exact ha rfl
      | off k' r c => rfl
    -- the diagonal part, for any result with the right diagonal block and transpositions
    have hA : ∀ T : LdltStore R, (∀ r c, r < sz.getD k 0 → c ≤ r → T.S (.diag k r c) = f.mat r c) →
        T.tr k = f.tr → (∀ r l, r < sz.getD k 0 →
          gOf T k r l = unitLower f.mat ((permOf f.tr).symm r) l) := by
      intro T h1 h2 r l hr
      unfold gOf
      rw [h2]
      exact unitLower_congr h1 _ _ (hperm r hr).2
    have hB : ∀ T : LdltStore R, (∀ r c, r < sz.getD k 0 → c ≤ r → T.S (.diag k r c) = f.mat r c) →
        T.tr k = f.tr → f.reg = false → ∀ r c, c ≤ r → r < sz.getD k 0 →
        ∑ l ∈ range (sz.getD k 0), gOf T k r l * T.S (.diag k l l) * gOf T k c l =
          F.S (.diag k r c) := by
      intro T h1 h2 hreg r c hcr hr
      have e : ∑ l ∈ range (sz.getD k 0), gOf T k r l * T.S (.diag k l l) * gOf T k c l =
          ∑ l ∈ range (sz.getD k 0), unitLower f.mat ((permOf f.tr).symm r) l * f.mat l l *
            unitLower f.mat ((permOf f.tr).symm c) l := by
        refine sum_congr rfl fun l hl => ?_
        rw [hA T h1 h2 r l hr, hA T h1 h2 c l (by omega), h1 l l (mem_range.1 hl) le_rfl]
      have hs : Dense.symm (diagOf F.S k) r c = F.S (.diag k r c) := by
        simp [Dense.symm, diagOf, max_eq_left hcr, min_eq_right hcr]
      rw [e]
      have hir := (hperm r hr).2
      have hic := (hperm c (by omega)).2
      rcases le_total ((permOf f.tr).symm c) ((permOf f.tr).symm r) with hle | hle
      · rw [p4 hreg _ _ hle hir, Equiv.apply_symm_apply, Equiv.apply_symm_apply, hs]
      · have := p4 hreg _ _ hle hic
        rw [Equiv.apply_symm_apply, Equiv.apply_symm_apply, symm_comm, hs] at this
        rw [← this]
        exact sum_congr rfl fun l _ => by ring
    by_cases hm : (sp.getD k []).length = 0
    · rw [if_pos (.inr hm)] at h
      simp only [Outcome.ok.injEq] at h
      subst h
      have htr : Clique.upd F.tr k f.tr k = f.tr := by simp [Clique.upd]
      refine ⟨?_, ?_, ?_, ?_, ?_, ?_, ?_, ?_⟩
      · intro r hr; simp only; rw [hd1 r r hr le_rfl]; exact p3 r hr
      · simp only [htr]; exact hperm
      · intro hreg
        simp only [Bool.or_eq_false_iff] at hreg
        exact hB _ hd1 htr hreg.2
      · intro r c _ hc; omega
      · intro a ha h1 _
        have hnil : sp.getD k [] = [] := List.length_eq_zero_iff.1 hm
        rw [hnil]
        simp only [List.not_mem_nil, false_and, if_false]
        exact hd2 a (by have := hlater a ha h1; omega)
      · intro a ha; exact hd2 a (by omega)
      · intro j hj; simp [Clique.upd, hj]
      · intro hreg
        simp only [Bool.or_eq_false_iff] at hreg
        exact hreg.1
    · rw [if_neg (by omega)] at h
      obtain ⟨cells, e1, e2, e3⟩ := sepCells_facts P hp hne hw hk
      rw [e1] at h
      simp only [Outcome.ok.injEq] at h
      generalize hS1 : setDiagLower F.S k (sz.getD k 0) f.mat = S1 at h hd1 hd2
      generalize hX : (fun r c => fsub (unitLower f.mat) (sz.getD k 0)
        (fun r => S1 (.off k (permOf f.tr r) c)) r / f.mat r r) = X at h
      generalize hS2 : setOff S1 k (sz.getD k 0) (sp.getD k []).length X = S2 at h
      obtain ⟨f1, f2⟩ := subtract_facts P e2 e3
        (fun a b => ∑ r ∈ range (sz.getD k 0), f.mat r r * X r a * X r b) S2
      generalize hS3 : subtractProducts cells (sp.getD k []).length
        (fun a b => ∑ r ∈ range (sz.getD k 0), f.mat r r * X r a * X r b) S2 = S3 at f1 f2
      have h : F' = LdltStore.mk S3 (Clique.upd F.tr k f.tr) (F.ret && f.ret) (F.reg || f.reg) := by
        rw [← h, ← hS3, ← hX]
      subst h
      have htr : Clique.upd F.tr k f.tr k = f.tr := by simp [Clique.upd]
      have hS2o : ∀ a : Cell, a.block ≠ k → S2 a = F.S a := by
        intro a ha
        rw [← hd2 a ha, ← hS2]
        cases a with
        | diag k' r c => rfl
        | off k' r c => simp only [setOff]; rw [if_neg]; rintro ⟨rfl, _⟩; exact ha rfl
      have hdiag : ∀ r c, r < sz.getD k 0 → c ≤ r → S3 (.diag k r c) = f.mat r c := by
        intro r c hr hc
        rw [f1 _ (by simp [Cell.block]), ← hS2]
        exact hd1 r c hr hc
      have hoff : ∀ r c, r < sz.getD k 0 → c < (sp.getD k []).length → S3 (.off k r c) = X r c := by
        intro r c hr hc
        rw [f1 _ (by simp [Cell.block]), ← hS2]
        simp only [setOff, true_and]
        rw [if_pos ⟨hr, hc⟩]
      refine ⟨?_, ?_, ?_, ?_, ?_, ?_, ?_, ?_⟩
      · intro r hr; simp only; rw [hdiag r r hr le_rfl]; exact p3 r hr
      · simp only [htr]; exact hperm
      · intro hreg
        simp only [Bool.or_eq_false_iff] at hreg
        exact hB _ hdiag htr hreg.2
      · intro r c hr hc
        have := fsub_full (unitLower f.mat) (sz.getD k 0)
          (fun r => S1 (.off k (permOf f.tr r) c))
          (fun r _ => by rw [unitLower_diag]; exact one_ne_zero)
          (fun r c _ h => unitLower_upper _ r c h) _ (hperm r hr).2
        simp only [Equiv.apply_symm_apply] at this
        have e : S1 (.off k r c) = F.S (.off k r c) := by rw [← hS1]; rfl
        rw [← e, ← this]
        refine sum_congr rfl fun l hl => ?_
        have hl' := mem_range.1 hl
        rw [hA _ hdiag htr r l hr]
        simp only
        rw [hoff l c hl' hc, hdiag l l hl' le_rfl, ← hX]
        simp only
        rw [mul_assoc, mul_div_cancel₀ _ (p3 l hl')]
      · intro a ha h1 h2
        simp only
        rw [f2 a ha h1 h2, hS2o a (by have := hlater a ha h1; omega)]
        split_ifs with hmem
        · congr 1
          refine sum_congr rfl fun l hl => ?_
          rw [hoff l _ (mem_range.1 hl) (List.idxOf_lt_length_of_mem hmem.1),
            hoff l _ (mem_range.1 hl) (List.idxOf_lt_length_of_mem hmem.2),
            hdiag l l (mem_range.1 hl) le_rfl]
        · rfl
      · intro a ha
        simp only
        rw [f1 a (by omega), hS2o a (by omega)]
      · intro j hj; simp [Clique.upd, hj]
      · intro hreg
        simp only [Bool.or_eq_false_iff] at hreg
        exact hreg.1

omit [IsStrictOrderedRing R] in
theorem ldltBlocks_steps {w : Workspace} {S : Store R} : ∀ (n : Nat) (F' : LdltStore R),
    ldltBlocks w S n = .ok F' →
    ∃ T : Nat → LdltStore R, (T 0).S = S ∧ T n = F' ∧
      ∀ k, k < n → ldltBlock w k (T k) = .ok (T (k + 1))
  | 0, F', h => by
    simp only [ldltBlocks, Outcome.ok.injEq] at h
    exact ⟨fun _ => F', by rw [← h], rfl, by omega⟩
  | n + 1, F', h => by
    rw [ldltBlocks] at h
    generalize ho : ldltBlocks w S n = o at h
    match o, h with
    | .ok F1, h =>
      simp only [Outcome.bind] at h
      obtain ⟨T, t1, t2, t3⟩ := ldltBlocks_steps n F1 ho
      refine ⟨fun k => if k ≤ n then T k else F', by simp [t1], by simp, ?_⟩
      intro k hk
      simp only
      rw [if_pos (by omega)]
      by_cases hkn : k < n
      · rw [if_pos (by omega)]; exact t3 k hkn
      · have : k = n := by omega
        subst this
        rw [if_neg (by omega), t2]; exact h
    | .throws, h => simp [Outcome.bind] at h
    | .ub, h => simp [Outcome.bind] at h
    | .diverges, h => simp [Outcome.bind] at h

theorem sum_perm {n : Nat} {π : Equiv.Perm Nat} (h : PermOK n π) (f : Nat → R) :
    ∑ r ∈ range n, f (π.symm r) = ∑ r ∈ range n, f r := by
  refine sum_nbij' (i := fun r => π.symm r) (j := fun r => π r) ?_ ?_ ?_ ?_ ?_
  · intro r hr; exact mem_range.2 (h r (mem_range.1 hr)).2
  · intro r hr; exact mem_range.2 (h r (mem_range.1 hr)).1
  · intro r _; simp
  · intro r _; simp
  · intro r _; rfl

theorem mdStep_spec (P : Pattern sz sp) {w : Workspace} (W : WsOK sz sp w) {F : LdltStore R}
    {k : Nat} (hk : k < sz.length) (hperm : PermOK (sz.getD k 0) (permOf (F.tr k))) (y : Nat → R) :
    ∃ z : Nat → R,
    (∀ r, r < sz.getD k 0 → ∑ c ∈ range (sz.getD k 0), gOf F k r c * z c = y (start sz k + r)) ∧
    ∀ v, mdStep w F k y v =
      if v ∈ sp.getD k [] then
        setSeg y (start sz k) (sz.getD k 0) z v -
          ∑ r ∈ range (sz.getD k 0), F.S (.off k r ((sp.getD k []).idxOf v)) * z r
      else setSeg y (start sz k) (sz.getD k 0) z v := by
  refine ⟨fsub (unitLower (diagOf F.S k)) (sz.getD k 0)
    (fun r => y (start sz k + permOf (F.tr k) r)), ?_, ?_⟩
  · intro r hr
    have e := fsub_full (unitLower (diagOf F.S k)) (sz.getD k 0)
      (fun r => y (start sz k + permOf (F.tr k) r))
      (fun r _ => by rw [unitLower_diag]; exact one_ne_zero)
      (fun r c _ h => unitLower_upper _ r c h) _ (hperm r hr).2
    simp only [Equiv.apply_symm_apply] at e
    rw [← e]
    rfl
  · intro v
    unfold mdStep
    simp only [W.size_eq, W.sep_eq, W.fwdStart_eq k (by omega), W.sizes]
    by_cases hlast : k + 1 = sz.length
    · rw [if_pos hlast]
      have : v ∉ sp.getD k [] := fun h => by
        have := P.sep_not_own h
        rw [hlast, start_of_ge _ le_rfl] at this
        omega
      rw [if_neg this]
    rw [if_neg hlast]
    by_cases hm : sz.getD k 0 = 0 ∨ (sp.getD k []).length = 0
    · rw [if_pos hm]
      rcases hm with hn | hm
      · rw [hn]
        simp only [range_zero, sum_empty, sub_zero, ite_self]
      · have hnil : sp.getD k [] = [] := List.length_eq_zero_iff.1 hm
        rw [hnil]
        simp
    · rw [if_neg hm, subSep_apply P W]
      split_ifs
      · congr 1
        refine sum_congr rfl fun r hr => ?_
        rw [setSeg_in _ _ (mem_range.1 hr)]
      · rfl

theorem mtStep_spec (P : Pattern sz sp) {w : Workspace} (W : WsOK sz sp w) {F : LdltStore R}
    (G : Nat → Nat → Nat → R) {M : Nat → Nat → R}
    (hM : full sz sp G (fun b r c => F.S (.off b r c)) = M)
    {k : Nat} (hk : k < sz.length) (hperm : PermOK (sz.getD k 0) (permOf (F.tr k))) (y : Nat → R) :
    ∃ x : Nat → R,
    (∀ c, c < sz.getD k 0 → ∑ r ∈ range (sz.getD k 0), gOf F k r c * x r = y (start sz k + c)) ∧
    (∀ v, start sz k ≤ v → mtStep w F k y v = setSeg y (start sz k) (sz.getD k 0) x v) ∧
    (∀ v, v < start sz k → mtStep w F k y v = y v -
      ∑ r ∈ range (sz.getD k 0), M (start sz k + r) v * x r) := by
  generalize hz : bsub (unitLower (diagOf F.S k)) (sz.getD k 0) (fun r => y (start sz k + r)) = z
  refine ⟨fun r => z ((permOf (F.tr k)).symm r), ?_, ?_⟩
  · intro c hc
    have e := bsub_full (unitLower (diagOf F.S k)) (sz.getD k 0) (fun r => y (start sz k + r))
      (fun r _ => by rw [unitLower_diag]; exact one_ne_zero)
      (fun r c _ h => unitLower_upper _ r c h) c hc
    rw [hz] at e
    rw [← e]
    exact sum_perm hperm (fun r => unitLower (diagOf F.S k) r c * z r)
  · unfold mtStep
    simp only [W.size_eq, W.bwdAt_eq hk, hz]
    cases k with
    | zero =>
      refine ⟨fun v _ => rfl, fun v hv => ?_⟩
      rw [start_zero] at hv; omega
    | succ b =>
      simp only
      constructor
      · intro v hv
        rw [(residLoop_full P W G _ _ hk v).1 hv]
      · intro v hv
        rw [(residLoop_full P W G _ _ hk v).2 hv, setSeg_out _ _ (.inl hv), hM]

omit [IsStrictOrderedRing R] in
theorem mtLoop_eq (w : Workspace) (F : LdltStore R) (b : Nat → R) (k : Nat)
    (hk : k < w.sizes.length) :
    mtLoop w F b (w.sizes.length - k) =
      mtStep w F k (mtLoop w F b (w.sizes.length - (k + 1))) := by
  rw [show w.sizes.length - k = (w.sizes.length - (k + 1)) + 1 by omega, mtLoop]
  congr 1
  omega

omit [IsStrictOrderedRing R] in
/-- The second loop divides by the diagonal. -/
theorem diagLoop_spec {w : Workspace} (W : WsOK sz sp w) (F : LdltStore R) (y : Nat → R) :
    ∀ n, n ≤ sz.length →
    (∀ k, k < n → ∀ r, r < sz.getD k 0 →
      diagLoop w F y n (start sz k + r) = (F.S (.diag k r r))⁻¹ * y (start sz k + r)) ∧
    ∀ v, start sz n ≤ v → diagLoop w F y n v = y v
  | 0, _ => ⟨by omega, fun v _ => rfl⟩
  | n + 1, h => by
    obtain ⟨i1, i2⟩ := diagLoop_spec W F y n (by omega)
    have hs := start_succ' (sz := sz) (k := n) (by omega)
    rw [diagLoop]
    simp only [W.size_eq, W.fwdStart_eq n (by omega)]
    constructor
    · intro k hk r hr
      by_cases hkn : k = n
      · subst hkn
        rw [setSeg_in _ _ hr, i2 _ (by omega)]
      · have := start_mono sz (show k + 1 ≤ n by omega)
        have h2 := start_succ' (sz := sz) (k := k) (by omega)
        rw [setSeg_out _ _ (.inl (by omega)), i1 k (by omega) r hr]
    · intro v hv
      rw [setSeg_out _ _ (.inr (by omega)), i2 v (by omega)]

theorem ldlt_main (P : Pattern sz sp) {path : List (List Nat)} (hp : IsPath sz sp path)
    (hne : sz ≠ []) {w : Workspace} (hw : workspaceInit path sz = .ok w) (W : WsOK sz sp w)
    {S : Store R} {F : LdltStore R} (h : blockLdlt w S = .ok F) (hreg : F.reg = false) (b : Nat → R) :
    ∀ i, i < sz.sum →
      ∑ j ∈ range sz.sum, ent sz sp S (max i j) (min i j) * solveLdlt w F b j = b i := by
  unfold blockLdlt at h
  rw [W.sizes] at h
  obtain ⟨T, t1, t2, t3⟩ := ldltBlocks_steps _ _ h
  have hspec := fun k hk => ldltBlock_spec P hp hne hw W (k := k) hk (t3 k hk)
  have hkeep : ∀ k, k < sz.length → ∀ a : Cell, a.block = k → (T (k + 1)).S a = F.S a := by
    intro k hk a ha
    rw [← t2]
    exact (keep_blocks (T := fun k => (T k).S) (fun k hk => (hspec k hk).2.2.2.2.2.1) ha sz.length
      (by omega) le_rfl).symm
  have htr : ∀ k, k < sz.length → (T (k + 1)).tr k = F.tr k := by
    intro k hk
    have : ∀ m, k + 1 ≤ m → m ≤ sz.length → (T m).tr k = (T (k + 1)).tr k := by
      intro m
      induction m with
      | zero => intro h; omega
      | succ m ih =>
        intro h1 h2
        by_cases hm : k + 1 ≤ m
        · rw [(hspec m (by omega)).2.2.2.2.2.2.1 k (by omega)]
          exact ih hm (by omega)
        · have : m = k := by omega
          subst this; rfl
    rw [← t2, this sz.length (by omega) le_rfl]
  have hregk : ∀ t, t ≤ sz.length → (T (sz.length - t)).reg = false := by
    intro t
    induction t with
    | zero => intro _; rw [Nat.sub_zero, t2]; exact hreg
    | succ t ih =>
      intro ht
      apply (hspec (sz.length - (t + 1)) (by omega)).2.2.2.2.2.2.2
      rw [show sz.length - (t + 1) + 1 = sz.length - t by omega]
      exact ih (by omega)
  have hreg' : ∀ k, k < sz.length → (T (k + 1)).reg = false := by
    intro k hk
    have := hregk (sz.length - (k + 1)) (by omega)
    rwa [show sz.length - (sz.length - (k + 1)) = k + 1 by omega] at this
  have hg : ∀ k, k < sz.length → gOf (T (k + 1)) k = gOf F k := by
    intro k hk
    funext r c
    unfold gOf
    rw [htr k hk]
    congr 1
    funext r c
    exact hkeep k hk _ rfl
  have hoff : ∀ k, k < sz.length → ∀ r c, (T (k + 1)).S (.off k r c) = F.S (.off k r c) :=
    fun k hk r c => hkeep k hk _ rfl
  have hdg : ∀ k, k < sz.length → ∀ r c, (T (k + 1)).S (.diag k r c) = F.S (.diag k r c) :=
    fun k hk r c => hkeep k hk _ rfl
  have hd : ∀ k, k < sz.length → ∀ r, r < sz.getD k 0 → F.S (.diag k r r) ≠ 0 := by
    intro k hk r hr
    rw [← hdg k hk]
    exact (hspec k hk).1 r hr
  have hperm : ∀ k, k < sz.length → PermOK (sz.getD k 0) (permOf (F.tr k)) := by
    intro k hk
    rw [← htr k hk]
    exact (hspec k hk).2.1
  generalize hM : full sz sp (fun b => gOf F b) (fun b r c => F.S (.off b r c)) = M
  have hC : ∀ k, ColsOK sz sp k M (gOf F k) (fun r c => F.S (.off k r c)) := fun k => by
    rw [← hM]; exact colsOK_full P _ _ k
  generalize hDdef : (fun v => F.S (.diag (blk sz v) (v - start sz (blk sz v))
    (v - start sz (blk sz v)))) = D
  have hD : ∀ k l, InBlock sz k l → D l = F.S (.diag k (l - start sz k) (l - start sz k)) := by
    intro k l hl
    rw [← hDdef]
    simp only [blk_eq hl]
  have hN : start sz sz.length = sz.sum := start_of_ge _ le_rfl
  have hst : ∀ k, k < sz.length → start sz k ≤ start sz (k + 1) := fun k _ =>
    start_mono sz (by omega)
  have hz : ∀ k, k < sz.length → ∀ i j, i < start sz (k + 1) → start sz (k + 1) ≤ j → M i j = 0 := by
    rw [← hM]; exact fun k hk i j => full_upper P _ _ k hk i j
  -- factorisation
  have hfac : ∀ k, (hk : k < sz.length) → _ := fun k hk =>
    step_factor P hk (hC k) (S := (T k).S) (S' := (T (k + 1)).S) (D := D)
      (d := fun r => F.S (.diag k r r)) (fun l hl => hD k l hl)
      (by rw [← hg k hk]; simp only [← hdg k hk]; exact (hspec k hk).2.2.1 (hreg' k hk))
      (by rw [← hg k hk]; simp only [← hdg k hk, ← hoff k hk]; exact (hspec k hk).2.2.2.1)
      (by simp only [← hdg k hk, ← hoff k hk]; exact (hspec k hk).2.2.2.2.1)
  have hfactor := factor_abs (start sz) sz.length (start_zero sz) hst M D hz
    (fun k => ent sz sp (T k).S)
    (fun k hk i j h1 h2 h3 h4 => (hfac k hk).1 i j h1 h2 h3 (by omega))
    (fun k hk i j h1 h2 h3 => (hfac k hk).2 i j h1 h2 (by omega))
  simp only [hN, t1] at hfactor
  -- substitutions
  have hfw : ∀ k, (hk : k < sz.length) → _ := fun k hk =>
    step_forward P hk (hC k) (mdStep_spec P W hk (hperm k hk) (mdLoop w F b k)).choose_spec.1
      (mdStep_spec P W hk (hperm k hk) (mdLoop w F b k)).choose_spec.2
  have hforward := forward_abs (start sz) sz.length (start_zero sz) hst M hz
    (fun k => mdLoop w F b k)
    (fun k hk i hi => (hfw k hk).1 i hi)
    (fun k hk i h1 h2 => (hfw k hk).2.1 i h1 h2)
    (fun k hk i h1 _ => (hfw k hk).2.2 i h1)
  simp only [hN] at hforward
  generalize hy : mdLoop w F b sz.length = y at hforward
  generalize hu : diagLoop w F y sz.length = u
  have hbw : ∀ k, (hk : k < sz.length) → _ := fun k hk =>
    step_backward hk (hC k)
      (mtStep_spec P W (fun b => gOf F b) hM hk (hperm k hk)
        (mtLoop w F u (sz.length - (k + 1)))).choose_spec.1
      (mtStep_spec P W (fun b => gOf F b) hM hk (hperm k hk)
        (mtLoop w F u (sz.length - (k + 1)))).choose_spec.2.1
      (mtStep_spec P W (fun b => gOf F b) hM hk (hperm k hk)
        (mtLoop w F u (sz.length - (k + 1)))).choose_spec.2.2
  have hstep : ∀ k, k < sz.length → mtLoop w F u (sz.length - k) =
      mtStep w F k (mtLoop w F u (sz.length - (k + 1))) := by
    intro k hk
    have := mtLoop_eq w F u k (by rw [W.sizes]; exact hk)
    rwa [W.sizes] at this
  have hbackward := backward_abs (start sz) sz.length (start_zero sz) hst M hz
    (fun k => mtLoop w F u (sz.length - k))
    (fun k hk i h1 _ => by rw [hstep k hk]; exact (hbw k hk).1 i h1)
    (fun k hk i h1 h2 => by rw [hstep k hk]; exact (hbw k hk).2.1 i h1 h2)
    (fun k hk i h1 => by rw [hstep k hk]; exact (hbw k hk).2.2 i h1)
  simp only [hN, Nat.sub_self, Nat.sub_zero] at hbackward
  have hx : solveLdlt w F b = mtLoop w F u sz.length := by
    unfold solveLdlt
    simp only [W.sizes, hy, hu]
  rw [hx]
  refine solve_abs sz.sum _ M D b y u _ ?_ hforward ?_ hbackward
  · intro i j hi hj
    rw [hfactor _ _ min_le_max (max_lt hi hj)]
    rcases le_total i j with hij | hij
    · rw [max_eq_right hij, min_eq_left hij]
      exact sum_congr rfl fun l _ => by ring
    · rw [max_eq_left hij, min_eq_right hij]
  · intro i hi
    obtain ⟨k, hk⟩ := exists_block sz hi
    have := (diagLoop_spec W F y sz.length le_rfl).1 k hk.1 _ hk.sub_lt
    rw [show start sz k + (i - start sz k) = i by have := hk.2.1; omega] at this
    rw [← hu, this, hD k i hk, ← mul_assoc, mul_inv_cancel₀ (hd k hk.1 _ hk.sub_lt), one_mul]

end Verif.Sup
