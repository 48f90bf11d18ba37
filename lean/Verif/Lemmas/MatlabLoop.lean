import Verif.Lemmas.MatlabMask

/-!
# Lemmas on the loops of `BuildMask`
-/

namespace Verif.Matlab

/-- Inclusion of masks with `N` entries. -/
def Sub (N : Nat) (M M' : Nat → Bool) : Prop := ∀ k, k < N → M k = true → M' k = true

theorem Sub.trans {N : Nat} {M M' M'' : Nat → Bool} (h : Sub N M M') (h' : Sub N M' M'') :
    Sub N M M'' := fun k hk hm => h' k hk (h k hk hm)

theorem nnz_le (N : Nat) (M : Nat → Bool) : nnz N M ≤ N := by
  unfold nnz
  exact (List.length_filter_le _ _).trans (by simp)

theorem nnz_mono {N : Nat} {M M' : Nat → Bool} (h : Sub N M M') : nnz N M ≤ nnz N M' := by
  unfold nnz
  rw [← List.countP_eq_length_filter, ← List.countP_eq_length_filter]
  exact List.countP_mono_left fun k hk => h k (List.mem_range.1 hk)

theorem nnz_eq {N : Nat} {M M' : Nat → Bool} (h : Sub N M M') (he : nnz N M = nnz N M') :
    Sub N M' M := by
  have h1 : (List.range N).filter M = ((List.range N).filter M').filter M := by
    rw [List.filter_filter]
    refine List.filter_congr fun k hk => ?_
    have := h k (List.mem_range.1 hk)
    cases hM : M k
    · simp
    · simp [this hM]
  unfold nnz at he
  rw [h1] at he
  have h2 := List.length_filter_eq_length_iff.1 he
  exact fun k hk hm => h2 k (List.mem_filter.2 ⟨List.mem_range.2 hk, hm⟩)

variable {R : Type} [Zero R] [DecidableEq R]

theorem spread_iff (P : Prob R) (M : Nat → Bool) (j : Nat) :
    spread P M j = true ↔ j < P.N ∧ ∃ i, i < P.m ∧ (∃ k, k < P.N ∧ M k = true ∧ P.A i k ≠ 0) ∧
      P.A i j ≠ 0 := by
  simp only [spread, Bool.and_eq_true, decide_eq_true_eq, List.any_eq_true, List.mem_range]

theorem spread_mono (P : Prob R) {M M' : Nat → Bool} (h : Sub P.N M M') :
    Sub P.N (spread P M) (spread P M') := by
  intro j _ hm
  obtain ⟨h1, i, hi, ⟨k, hk, h2, h3⟩, h4⟩ := (spread_iff P M j).1 hm
  exact (spread_iff P M' j).2 ⟨h1, i, hi, ⟨k, hk, h k hk h2, h3⟩, h4⟩

theorem spread_spread (P : Prob R) (M : Nat → Bool) :
    Sub P.N (spread P M) (spread P (spread P M)) := by
  intro j hj hm
  obtain ⟨h1, i, hi, h2, h4⟩ := (spread_iff P M j).1 hm
  exact (spread_iff P _ j).2 ⟨h1, i, hi, ⟨j, h1, hm, h4⟩, h4⟩

/-- From a mask that grows, the loop ends with a closed mask. -/
theorem closureLoop_grows (P : Prob R) : ∀ (f : Nat) (M : Nat → Bool), Sub P.N M (spread P M) →
    P.N < f + nnz P.N M → ∃ L, closureLoop P f M (nnz P.N M) = .ok (spread P L) ∧
      Sub P.N (spread P (spread P L)) (spread P L) ∧ Sub P.N M (spread P L) ∧
      Sub P.N (spread P M) (spread P L) := by
  intro f
  induction f with
  | zero =>
    intro M _ hf
    have := nnz_le P.N M
    omega
  | succ f ih =>
    intro M hM hf
    simp only [closureLoop]
    by_cases he : nnz P.N M ≠ nnz P.N (spread P M)
    · rw [if_pos he]
      have hm := nnz_mono hM
      obtain ⟨L, h1, h2, h3, h4⟩ := ih (spread P M) (spread_spread P M) (by omega)
      exact ⟨L, h1, h2, hM.trans h3, h3⟩
    · rw [if_neg he]
      have := nnz_eq hM (not_not.1 he)
      exact ⟨M, rfl, spread_mono P this, hM, fun _ _ h => h⟩

/-- From any mask, the loop ends with a mask that contains the first spread. -/
theorem closureLoop_ok (P : Prob R) (f : Nat) (M : Nat → Bool) (hf : P.N + 1 < f) :
    ∃ L, closureLoop P f M (nnz P.N M) = .ok (spread P L) ∧ Sub P.N (spread P M) (spread P L) := by
  cases f with
  | zero => omega
  | succ f =>
    simp only [closureLoop]
    by_cases he : nnz P.N M ≠ nnz P.N (spread P M)
    · rw [if_pos he]
      obtain ⟨L, h1, h2, h3, h4⟩ := closureLoop_grows P f (spread P M) (spread_spread P M) (by omega)
      exact ⟨L, h1, h3⟩
    · rw [if_neg he]
      exact ⟨M, rfl, fun _ _ h => h⟩

/-- The mask at the start of the loop. -/
def withCosts (P : Prob R) (M : Nat → Bool) : Nat → Bool := fun j =>
  ((List.range P.m).any fun i => decide (P.b i ≠ 0) && decide (P.A i j ≠ 0)) || M j

theorem withCosts_iff (P : Prob R) (M : Nat → Bool) (j : Nat) :
    withCosts P M j = true ↔ (∃ i, i < P.m ∧ P.b i ≠ 0 ∧ P.A i j ≠ 0) ∨ M j = true := by
  simp only [withCosts, Bool.or_eq_true, List.any_eq_true, List.mem_range, Bool.and_eq_true,
    decide_eq_true_eq]

theorem closure_ok (P : Prob R) (M : Nat → Bool) :
    ∃ L, closure P M = .ok (spread P L) ∧ Sub P.N (spread P (withCosts P M)) (spread P L) :=
  closureLoop_ok P (P.N + 2) (withCosts P M) (by omega)

theorem closure_grows (P : Prob R) (M : Nat → Bool)
    (hM : ∀ j, j < P.N → M j = true → ∃ i, i < P.m ∧ P.A i j ≠ 0) :
    ∃ L, closure P M = .ok (spread P L) ∧ Sub P.N (spread P (withCosts P M)) (spread P L) ∧
      Sub P.N M (spread P L) := by
  obtain ⟨L, h1, -, h3, h4⟩ := closureLoop_grows P (P.N + 2) (withCosts P M) (by
    intro j hj hm
    rw [spread_iff]
    refine ⟨hj, ?_⟩
    rcases (withCosts_iff P M j).1 hm with ⟨i, hi, hb, ha⟩ | hm'
    · exact ⟨i, hi, ⟨j, hj, hm, ha⟩, ha⟩
    · obtain ⟨i, hi, ha⟩ := hM j hj hm'
      exact ⟨i, hi, ⟨j, hj, hm, ha⟩, ha⟩) (by omega)
  exact ⟨L, h1, h4, fun k hk hm => h3 k hk ((withCosts_iff P M k).2 (.inr hm))⟩

/-- The rows of the program are symmetric in every block. -/
def SymRow : List Nat → Nat → (Nat → R) → Prop
  | [], _, _ => True
  | n :: ns, off, x => (∀ i j, i < n → j < n → x (pos off n i j) = x (pos off n j i)) ∧
    SymRow ns (off + n * n) x

theorem symBlocks_spread_aux (P : Prob R) (L : Nat → Bool) : ∀ (s : List Nat) (off : Nat),
    off + numVar s ≤ P.N → (∀ i, i < P.m → SymRow s off (P.A i)) → SymBlocks s off (spread P L) := by
  intro s
  induction s with
  | nil => exact fun _ _ _ => trivial
  | cons n ns ih =>
    intro off hN h
    simp only [numVar] at hN
    refine ⟨fun i j hi hj => ?_, ih _ (by omega) fun i hi => (h i hi).2⟩
    have b1 := pos_bounds (off := off) hi hj
    have b2 := pos_bounds (off := off) hj hi
    rw [Bool.eq_iff_iff, spread_iff, spread_iff]
    constructor
    · rintro ⟨-, r, hr, h1, h2⟩
      exact ⟨by omega, r, hr, h1, by rw [← (h r hr).1 i j hi hj]; exact h2⟩
    · rintro ⟨-, r, hr, h1, h2⟩
      exact ⟨by omega, r, hr, h1, by rw [(h r hr).1 i j hi hj]; exact h2⟩

/-- The dimensions agree and the rows of `A` are symmetric in every block. -/
structure Prob.Ok (P : Prob R) : Prop where
  dim : P.N = numVar P.s
  sym : ∀ i, i < P.m → SymRow P.s 0 (P.A i)

/-- What one pass of the outer loop does. -/
structure Pass (P : Prob R) (M M' : Nat → Bool) (cls : List (List (List Nat))) (L : Nat → Bool) :
    Prop where
  masked : Masked P.s 0 M' cls
  comp : Comp P.s 0 (spread P L) cls
  sub : Sub P.N (spread P L) M'
  first : Sub P.N (spread P (withCosts P M)) (spread P L)

theorem pass_ok (P : Prob R) (hP : P.Ok) (M : Nat → Bool) : ∃ L M' cls,
    closure P M = .ok (spread P L) ∧ completeBlocks P.s 0 (spread P L) = .ok (M', cls) ∧
      Pass P M M' cls L ∧
      ((∀ j, j < P.N → M j = true → ∃ i, i < P.m ∧ P.A i j ≠ 0) → Sub P.N M M') := by
  by_cases hM : ∀ j, j < P.N → M j = true → ∃ i, i < P.m ∧ P.A i j ≠ 0
  · obtain ⟨L, h1, h2, h3⟩ := closure_grows P M hM
    obtain ⟨M', cls, g1, g2, g3, g4, -⟩ := completeBlocks_ok P.s 0 (spread P L)
      (symBlocks_spread_aux P L P.s 0 (by rw [hP.dim]; omega) hP.sym)
    exact ⟨L, M', cls, h1, g1, ⟨g2, g3, fun k _ => g4 k, h2⟩, fun _ k hk hm => g4 k (h3 k hk hm)⟩
  · obtain ⟨L, h1, h2⟩ := closure_ok P M
    obtain ⟨M', cls, g1, g2, g3, g4, -⟩ := completeBlocks_ok P.s 0 (spread P L)
      (symBlocks_spread_aux P L P.s 0 (by rw [hP.dim]; omega) hP.sym)
    exact ⟨L, M', cls, h1, g1, ⟨g2, g3, fun k _ => g4 k, h2⟩, fun h => absurd h hM⟩

/-- A second pass only adds entries. -/
theorem Pass.mono {P : Prob R} (hP : P.Ok) {M M' M'' : Nat → Bool} {cls cls' : List (List (List Nat))}
    {L L' : Nat → Bool} (h : Pass P M M' cls L) (h' : Pass P M' M'' cls' L') : Sub P.N M' M'' := by
  intro k hk hm
  refine Comp.mono h.comp h'.comp h.masked h'.masked (fun j _ hj hjm => ?_) k (by omega)
    (by rw [hP.dim] at hk; omega) hm
  have hj : j < P.N := by rw [hP.dim]; omega
  refine h'.first j hj (spread_mono P ?_ j hj (spread_spread P L j hj hjm))
  exact fun i hi him => (withCosts_iff P M' i).2 (.inr (h.sub i hi him))

/-- The mask `M` contains every row that it meets and every row with a right-hand side that is not
zero. -/
structure Closed (P : Prob R) (M : Nat → Bool) : Prop where
  row : ∀ i, i < P.m → ∀ k, k < P.N → M k = true → P.A i k ≠ 0 → ∀ j, j < P.N → P.A i j ≠ 0 →
    M j = true
  rhs : ∀ i, i < P.m → P.b i ≠ 0 → ∀ j, j < P.N → P.A i j ≠ 0 → M j = true

theorem Pass.closed {P : Prob R} {M M' : Nat → Bool} {cls : List (List (List Nat))}
    {L : Nat → Bool} (h : Pass P M M' cls L) (hs : Sub P.N M' M) : Closed P M' := by
  have key : Sub P.N (spread P (withCosts P M)) M' := h.first.trans h.sub
  refine ⟨fun i hi k hk hm ha j hj haj => ?_, fun i hi hb j hj ha => ?_⟩
  · refine key j hj ((spread_iff P _ j).2 ⟨hj, i, hi, ⟨k, hk, ?_, ha⟩, haj⟩)
    exact (withCosts_iff P M k).2 (.inr (hs k hk hm))
  · refine key j hj ((spread_iff P _ j).2 ⟨hj, i, hi, ⟨j, hj, ?_, ha⟩, ha⟩)
    exact (withCosts_iff P M j).2 (.inl ⟨i, hi, hb, ha⟩)

/-- From a mask that grows at every pass, the outer loop ends with a closed mask. -/
theorem maskLoop_grows (P : Prob R) (hP : P.Ok) : ∀ (f : Nat) (M : Nat → Bool),
    (∀ M' cls L, Pass P M M' cls L → closure P M = .ok (spread P L) →
      completeBlocks P.s 0 (spread P L) = .ok (M', cls) → Sub P.N M M') →
    P.N < f + nnz P.N M → ∃ M' cls L M0, maskLoop P f M (nnz P.N M) = .ok (M', cls) ∧
      Pass P M0 M' cls L ∧ Closed P M' ∧ Sub P.N M M' := by
  intro f
  induction f with
  | zero =>
    intro M _ hf
    have := nnz_le P.N M
    omega
  | succ f ih =>
    intro M hM hf
    obtain ⟨L, M', cls, h1, h2, h3, -⟩ := pass_ok P hP M
    have hs := hM M' cls L h3 h1 h2
    simp only [maskLoop, h1, Outcome.bind_ok, h2]
    by_cases he : nnz P.N M = nnz P.N M'
    · rw [if_pos he]
      exact ⟨M', cls, L, M, rfl, h3, h3.closed (nnz_eq hs he), hs⟩
    · rw [if_neg he]
      have hm := nnz_mono hs
      obtain ⟨M'', cls', L', M0, g1, g2, g3, g4⟩ := ih M' (fun N' c L' hp _ _ => h3.mono hP hp) (by omega)
      exact ⟨M'', cls', L', M0, g1, g2, g3, hs.trans g4⟩

/-- `BuildMask` ends; each clique has an entry in the support of `A`. -/
theorem buildMask_ok (P : Prob R) (hP : P.Ok) : ∃ M cls L M0, buildMask P = .ok (M, cls) ∧
    Pass P M0 M cls L := by
  obtain ⟨L, M', cls, h1, h2, h3, -⟩ := pass_ok P hP fun j => decide (P.c j ≠ 0)
  unfold buildMask
  simp only [maskLoop, h1, Outcome.bind_ok, h2]
  split_ifs with he
  · exact ⟨M', cls, L, _, rfl, h3⟩
  · obtain ⟨M'', cls', L', M0, g1, g2, -⟩ := maskLoop_grows P hP (P.N + 1) M'
      (fun N' c L' hp _ _ => h3.mono hP hp) (by omega)
    exact ⟨M'', cls', L', M0, g1, g2⟩

/-- If every entry with a cost occurs in a row of `A`, the mask is closed and contains the costs. -/
theorem buildMask_closed (P : Prob R) (hP : P.Ok)
    (hc : ∀ j, j < P.N → P.c j ≠ 0 → ∃ i, i < P.m ∧ P.A i j ≠ 0) :
    ∃ M cls L M0, buildMask P = .ok (M, cls) ∧ Pass P M0 M cls L ∧ Closed P M ∧
      ∀ j, j < P.N → P.c j ≠ 0 → M j = true := by
  obtain ⟨M, cls, L, M0, h1, h2, h3, h4⟩ := maskLoop_grows P hP (P.N + 2)
    (fun j => decide (P.c j ≠ 0)) (fun M' cls L _ e1 e2 => by
      obtain ⟨L', N', c', f1, f2, -, f4⟩ := pass_ok P hP fun j => decide (P.c j ≠ 0)
      rw [f1] at e1
      have e3 : spread P L' = spread P L := by injection e1
      rw [e3, e2] at f2
      have e4 : M' = N' := by injection f2 with e; exact congrArg Prod.fst e
      rw [e4]
      exact f4 fun j hj hm => hc j hj (by simpa using hm)) (by omega)
  exact ⟨M, cls, L, M0, h1, h2, h3, fun j hj hcj => h4 j hj (by simpa using hcj)⟩

end Verif.Matlab
