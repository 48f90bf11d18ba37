import Mathlib.Data.List.FinRange
import Verif.Spec.GramSchmidt
import Verif.Model.GramSchmidt
import Verif.Model.Solve
import Verif.Spec.Solve
import Verif.Lemmas.HermitianLmi

/-!
# Lemmas on the orthogonalization of columns
-/

namespace Verif.Ortho

open Matrix Finset Hyper Hyper.Spec HermLmi

section Algebra

variable {R : Type} [Field R] {d n m : Nat} {ι κ l : Type} [Fintype ι] [Fintype κ] [Fintype l]

theorem multiply_zero (X : Hyp d ι κ R) : multiply X (0 : Hyp d κ l R) = 0 := by
  funext c
  rw [multiply_apply]
  simp

theorem zero_multiply (Y : Hyp d κ l R) : multiply (0 : Hyp d ι κ R) Y = 0 := by
  funext c
  rw [multiply_apply]
  simp

theorem multiply_sum {τ : Type} (s : Finset τ) (X : Hyp d ι κ R) (Y : τ → Hyp d κ l R) :
    multiply X (∑ t ∈ s, Y t) = ∑ t ∈ s, multiply X (Y t) := by
  classical
  induction s using Finset.induction_on with
  | empty => rw [sum_empty, sum_empty, multiply_zero]
  | insert a s ha ih => rw [sum_insert ha, sum_insert ha, ← ih]; exact multiply_add _ _ _

theorem sum_multiply {τ : Type} (s : Finset τ) (X : τ → Hyp d ι κ R) (Y : Hyp d κ l R) :
    multiply (∑ t ∈ s, X t) Y = ∑ t ∈ s, multiply (X t) Y := by
  classical
  induction s using Finset.induction_on with
  | empty => rw [sum_empty, sum_empty, zero_multiply]
  | insert a s ha ih => rw [sum_insert ha, sum_insert ha, ← ih]; exact add_multiply _ _ _

/-- A combination of columns with coefficients on the right. -/
def comb (A : Hyp d (Fin n) (Fin m) R) (z : Fin m → Hyp d Unit Unit R) : Col d n R :=
  ∑ k, multiply (column A k) (z k)

/-- An entry of a matrix. -/
def entry (S : Hyp d ι κ R) (l : ι) (k : κ) : Hyp d Unit Unit R := fun c => Matrix.of fun _ _ => S c l k

/-- A matrix from its entries. -/
def build (z : κ → ι → Hyp d Unit Unit R) : Hyp d ι κ R := fun c => Matrix.of fun l k => z k l c () ()

theorem entry_build (z : κ → ι → Hyp d Unit Unit R) (l : ι) (k : κ) : entry (build z) l k = z k l := by
  funext c
  ext u v
  rfl

theorem multiply_comb (A : Hyp d (Fin n) (Fin m) R) (S : Hyp d (Fin m) κ R) (k : κ) (c : Fin d)
    (r : Fin n) : multiply A S c r k = comb A (fun l => entry S l k) c r () := by
  unfold comb
  rw [Finset.sum_apply, Matrix.sum_apply]
  simp only [multiply_apply, Matrix.sum_apply, Matrix.smul_apply, Matrix.mul_apply, smul_eq_mul,
    univ_unique, sum_singleton, column, mul_sum, entry, Matrix.of_apply]
  refine Eq.trans ?_ sum_comm
  refine sum_congr rfl fun i _ => ?_
  exact sum_comm

theorem multiply_column (A : Hyp d (Fin n) (Fin m) R) (v : Hyp d (Fin m) Unit R) :
    multiply A v = comb A fun l => entry v l () := by
  funext c
  ext r u
  exact multiply_comb A v u c r

theorem comb_add (A : Hyp d (Fin n) (Fin m) R) (y z : Fin m → Hyp d Unit Unit R) :
    comb A (fun k => y k + z k) = comb A y + comb A z := by
  unfold comb
  rw [← sum_add_distrib]
  exact sum_congr rfl fun k _ => multiply_add _ _ _

theorem comb_multiply (hd : d = 1 ∨ d = 2 ∨ d = 4) (A : Hyp d (Fin n) (Fin m) R)
    (z : Fin m → Hyp d Unit Unit R) (t : Hyp d Unit Unit R) :
    multiply (comb A z) t = comb A fun k => multiply (z k) t := by
  unfold comb
  rw [sum_multiply]
  exact sum_congr rfl fun k _ => multiply_assoc hd _ _ _

theorem comb_zero (A : Hyp d (Fin n) (Fin m) R) : comb A (fun _ => 0) = 0 :=
  sum_eq_zero fun _ _ => multiply_zero _

theorem comb_single (hd : Dim d) (A : Hyp d (Fin n) (Fin m) R) (k : Fin m) :
    comb A (fun l => if l = k then identity d else 0) = column A k := by
  unfold comb
  rw [sum_eq_single k]
  · beta_reduce
    rw [if_pos rfl, multiply_one hd]
  · intro l _ hl
    beta_reduce
    rw [if_neg hl, multiply_zero]
  · simp

/-- The product of two columns. -/
def gram (a b : Col d n R) : Hyp d Unit Unit R := multiply (Hyper.conjTranspose a) b

theorem gram_add (a b c : Col d n R) : gram a (b + c) = gram a b + gram a c := multiply_add _ _ _

theorem gram_multiply (hd : d = 1 ∨ d = 2 ∨ d = 4) (a b : Col d n R) (t : Hyp d Unit Unit R) :
    gram a (multiply b t) = multiply (gram a b) t := (multiply_assoc hd _ _ _).symm

theorem gram_conj (hd : Dim d) (a b : Col d n R) : Hyper.conjTranspose (gram a b) = gram b a := by
  unfold gram
  rw [conj_multiply hd, conj_conj]

theorem gram_self [CharZero R] (hd : Dim d) (a : Col d n R) :
    gram a a = scalarMultiply (identity d) (traceInner a a) := by
  have h0 : 0 < d := by
    rcases hd with rfl | rfl | rfl | rfl <;> omega
  have hh := gram_conj hd a a
  funext c
  ext u v
  by_cases hc : c.1 = 0
  · have h1 : traceInner a a = retr (gram a a) := traceInner_retr hd a a
    have : NeZero d := ⟨h0.ne'⟩
    have h2 : c = 0 := Fin.ext (by simpa using hc)
    rw [h1, retr_zero, h2]
    simp [scalarMultiply, identity, Matrix.trace]
  · have := congrFun (congrFun (congrFun hh c) u) v
    unfold Hyper.conjTranspose at this
    rw [if_neg hc] at this
    simp only [Matrix.neg_apply, Matrix.transpose_apply] at this
    have huv : gram a a c v u = gram a a c u v := rfl
    rw [huv] at this
    simp only [scalarMultiply, identity, if_neg hc, Matrix.zero_apply, zero_mul]
    have h2 : (2 : R) * gram a a c u v = 0 := by linear_combination -this
    exact (mul_eq_zero.1 h2).resolve_left two_ne_zero

theorem gram_scalar_left (a b : Col d n R) (s : R) :
    gram (scalarMultiply a s) b = scalarMultiply (gram a b) s := by
  unfold gram
  rw [conj_scalar, scalar_multiply]

theorem gram_scalar_right (a b : Col d n R) (s : R) :
    gram a (scalarMultiply b s) = scalarMultiply (gram a b) s := multiply_scalar _ _ _

theorem conj_zero : Hyper.conjTranspose (0 : Hyp d Unit Unit R) = 0 := by
  funext c
  rw [conj_apply]
  simp

theorem scalar_zero (s : R) : scalarMultiply (0 : Hyp d Unit Unit R) s = 0 := by
  funext c
  rw [Hyper.scalar_apply, Pi.zero_apply, smul_zero]

/-- `Q* Q` in columns. -/
theorem orthonormal_iff (Q : Hyp d (Fin n) (Fin m) R) : Spec.Orthonormal Q ↔
    ∀ k l, gram (column Q k) (column Q l) = if k = l then identity d else 0 := by
  have key : ∀ c k l, multiply (Hyper.conjTranspose Q) Q c k l =
      gram (column Q k) (column Q l) c () () := by
    intro c k l
    unfold gram
    simp only [multiply_apply, conj_apply, Matrix.sum_apply, Matrix.smul_apply, Matrix.mul_apply,
      Matrix.transpose_apply, column]
  unfold Spec.Orthonormal
  constructor
  · intro h k l
    funext c
    ext u v
    have := congrFun (congrFun (congrFun h c) k) l
    rw [key] at this
    rw [show gram (column Q k) (column Q l) c u v = gram (column Q k) (column Q l) c () () from rfl,
      this]
    by_cases hkl : k = l <;> by_cases hc : c.1 = 0 <;>
      simp [identity, hkl, hc, Matrix.one_apply]
  · intro h
    funext c
    ext k l
    rw [key, h]
    by_cases hkl : k = l <;> by_cases hc : c.1 = 0 <;>
      simp [identity, hkl, hc, Matrix.one_apply]

end Algebra

section Columns

variable {R : Type} [Field R] {d n m : Nat}

theorem column_setColumn (Q : Hyp d (Fin n) (Fin m) R) (j k : Fin m) (v : Col d n R) :
    column (setColumn Q j v) k = if k = j then v else column Q k := by
  by_cases h : k = j
  · rw [if_pos h]
    funext c
    ext r u
    simp [column, setColumn, h]
  · rw [if_neg h]
    funext c
    ext r u
    simp [column, setColumn, h]

theorem column_project (Q : Hyp d (Fin n) (Fin m) R) (i k : Fin m) :
    column (project Q i) k = if i < k then
      column Q k + multiply (column Q i) (scalarMultiply (gram (column Q i) (column Q k)) (-1))
      else column Q k := by
  have key : ∀ (l : List (Fin m)) (Q : Hyp d (Fin n) (Fin m) R), l.Nodup →
      ∀ k, column (l.foldl (fun Q j =>
        if i < j then
          let ip := multiply (Hyper.conjTranspose (column Q i)) (column Q j)
          let ip := scalarMultiply ip (-1)
          setColumn Q j (Hyper.add (column Q j) (multiply (column Q i) ip))
        else Q) Q) k = if i < k ∧ k ∈ l then
          column Q k + multiply (column Q i) (scalarMultiply (gram (column Q i) (column Q k)) (-1))
        else column Q k := by
    intro l
    induction l with
    | nil => intro Q _ k; simp
    | cons j l ih =>
      intro Q hnd k
      obtain ⟨hj, hnd⟩ := List.nodup_cons.1 hnd
      rw [List.foldl_cons]
      by_cases hij : i < j
      · rw [if_pos hij, ih _ hnd]
        have hi : column (setColumn Q j (Hyper.add (column Q j) (multiply (column Q i)
            (scalarMultiply (multiply (Hyper.conjTranspose (column Q i)) (column Q j)) (-1))))) i =
            column Q i := by
          rw [column_setColumn, if_neg hij.ne]
        simp only [hi, column_setColumn]
        by_cases hkj : k = j
        · subst hkj
          simp only [hj, and_false, if_false, if_true, List.mem_cons, true_or, and_true, hij]
          rfl
        · simp only [List.mem_cons, hkj, if_false, false_or]
      · rw [if_neg hij, ih _ hnd]
        by_cases hkj : k = j
        · subst hkj
          simp [hij]
        · simp [hkj]
  have := key (List.finRange m) Q (List.nodup_finRange m) k
  simp only [List.mem_finRange, and_true] at this
  exact this

end Columns

section Invariant

variable {R : Type} [Field R] [LinearOrder R] [IsStrictOrderedRing R] {d n m : Nat} {sqrt : R → R}

/-- The state after `i` columns. -/
structure Inv (A Q : Hyp d (Fin n) (Fin m) R) (i : Nat) : Prop where
  orth : ∀ k : Fin m, k.1 < i → ∀ l, gram (column Q k) (column Q l) = if k = l then identity d else 0
  done : ∀ k : Fin m, k.1 < i → ∃ z, (∀ l, k < l → z l = 0) ∧
    (∃ a, 0 < a ∧ z k = scalarMultiply (identity d) a) ∧ column Q k = comb A z
  rest : ∀ k : Fin m, i ≤ k.1 → ∃ z, (∀ l : Fin m, i ≤ l.1 → z l = 0) ∧
    column Q k = column A k + comb A z

theorem inv_start (A : Hyp d (Fin n) (Fin m) R) : Inv A A 0 :=
  ⟨by simp, by simp, fun k _ => ⟨fun _ => 0, by simp, by rw [comb_zero, add_zero]⟩⟩

theorem scalar_one_mul (a b : R) : scalarMultiply (scalarMultiply (identity d : Hyp d Unit Unit R) a) b =
    scalarMultiply (identity d) (a * b) := by
  funext c
  rw [Hyper.scalar_apply, Hyper.scalar_apply, Hyper.scalar_apply, smul_smul, mul_comm]

theorem scalar_one (a : Hyp d Unit Unit R) : scalarMultiply a 1 = a := by
  funext c
  rw [Hyper.scalar_apply, one_smul]

theorem inv_step (hd : d = 1 ∨ d = 2 ∨ d = 4) (hsq : ∀ x, 0 ≤ x → SolveLoop.Spec.SqrtAt sqrt x)
    {A Q Q' : Hyp d (Fin n) (Fin m) R} {i : Fin m} (h : Inv A Q i.1) (hs : step sqrt Q i = some Q') :
    Inv A Q' (i.1 + 1) := by
  have hD := dim_of_assoc hd
  unfold step at hs
  simp only at hs
  by_cases hn : sqrt (traceInner (column Q i) (column Q i)) = 0
  · rw [if_pos hn] at hs
    cases hs
  rw [if_neg hn] at hs
  obtain rfl := Option.some.inj hs
  have hnn : 0 ≤ traceInner (column Q i) (column Q i) := by
    rw [traceInner_flat]
    exact sum_nonneg fun _ _ => mul_self_nonneg _
  obtain ⟨hs1, hs2⟩ := hsq _ hnn
  have hpos : 0 < sqrt (traceInner (column Q i) (column Q i)) := lt_of_le_of_ne hs1 (Ne.symm hn)
  set s := sqrt (traceInner (column Q i) (column Q i)) with hsdef
  set u : Col d n R := scalarMultiply (column Q i) (1 / s) with hu
  have hcol : ∀ k, column (project (setColumn Q i u) i) k = if k = i then u else if i < k then
      column Q k + multiply u (scalarMultiply (gram u (column Q k)) (-1)) else column Q k := by
    intro k
    rw [column_project]
    simp only [column_setColumn, if_true]
    by_cases hk : k = i
    · subst hk
      simp
    · simp [hk]
  have huu : gram u u = identity d := by
    rw [hu, gram_scalar_left, gram_scalar_right, gram_self hD, ← hs2, scalar_one_mul, scalar_one_mul]
    have : s * s * (1 / s) * (1 / s) = 1 := by field_simp
    rw [this, scalar_one]
  have huk : ∀ k : Fin m, k.1 < i.1 → gram (column Q k) u = 0 := by
    intro k hk
    rw [hu, gram_scalar_right, h.orth k hk i, if_neg (fun e => by rw [e] at hk; omega), scalar_zero]
  refine ⟨?_, ?_, ?_⟩
  · intro k hk l
    by_cases hki : k = i
    · subst hki
      rw [hcol, hcol, if_pos rfl]
      by_cases hl : l = k
      · rw [if_pos hl, if_pos hl.symm, huu]
      · rw [if_neg hl, if_neg (Ne.symm hl)]
        by_cases hlt : k < l
        · rw [if_pos hlt, gram_add, gram_multiply hd, huu, one_multiply hD]
          funext c
          rw [Pi.add_apply, Hyper.scalar_apply, neg_one_smul, add_neg_cancel]
          rfl
        · rw [if_neg hlt]
          have hlk : l.1 < k.1 := by
            have : l.1 ≠ k.1 := fun e => hl (Fin.ext e)
            have : ¬ k.1 < l.1 := hlt
            omega
          rw [← gram_conj hD, huk l hlk, conj_zero]
    · have hk' : k.1 < i.1 := by
        have : k.1 ≠ i.1 := fun e => hki (Fin.ext e)
        omega
      have hck : column (project (setColumn Q i u) i) k = column Q k := by
        rw [hcol, if_neg hki, if_neg (fun e : i < k => by have : i.1 < k.1 := e; omega)]
      rw [hck, hcol]
      by_cases hl : l = i
      · rw [if_pos hl, huk k hk', if_neg (fun e => by rw [e, hl] at hk'; omega)]
      · rw [if_neg hl]
        by_cases hlt : i < l
        · rw [if_pos hlt, gram_add, gram_multiply hd, huk k hk', zero_multiply, add_zero, h.orth k hk']
        · rw [if_neg hlt, h.orth k hk']
  · intro k hk
    by_cases hki : k = i
    · subst hki
      obtain ⟨z, hz, e⟩ := h.rest k le_rfl
      refine ⟨fun l => scalarMultiply ((if l = k then identity d else 0) + z l) (1 / s), ?_, ?_, ?_⟩
      · intro l hl
        beta_reduce
        rw [if_neg (Fin.ne_of_gt hl), hz l (le_of_lt hl), add_zero, scalar_zero]
      · refine ⟨1 / s, by positivity, ?_⟩
        beta_reduce
        rw [if_pos rfl, hz k le_rfl, add_zero]
      · rw [hcol, if_pos rfl, hu, e]
        have : column A k + comb A z = comb A fun l => (if l = k then identity d else 0) + z l := by
          rw [comb_add, comb_single hD]
        rw [this]
        unfold comb
        funext c
        rw [Hyper.scalar_apply, Finset.sum_apply, Finset.sum_apply, smul_sum]
        refine sum_congr rfl fun l _ => ?_
        rw [multiply_scalar, Hyper.scalar_apply]
    · have hk' : k.1 < i.1 := by
        have : k.1 ≠ i.1 := fun e => hki (Fin.ext e)
        omega
      rw [hcol, if_neg hki, if_neg (fun e : i < k => by have : i.1 < k.1 := e; omega)]
      exact h.done k hk'
  · intro k hk
    have hik : i < k := hk
    obtain ⟨z, hz, e⟩ := h.rest k (by omega)
    obtain ⟨y, hy, e'⟩ := h.rest i le_rfl
    rw [hcol, if_neg (Fin.ne_of_gt hik), if_pos hik]
    set t := scalarMultiply (gram u (column Q k)) (-1) with ht
    refine ⟨fun l => z l + multiply (scalarMultiply ((if l = i then identity d else 0) + y l) (1 / s)) t,
      ?_, ?_⟩
    · intro l hl
      beta_reduce
      rw [hz l (by omega), if_neg (fun e => by rw [e] at hl; omega), hy l (by omega), add_zero,
        scalar_zero, zero_multiply, add_zero]
    · rw [comb_add, ← comb_multiply hd, ← add_assoc, ← e]
      congr 2
      rw [hu, e']
      have : column A i + comb A y = comb A fun l => (if l = i then identity d else 0) + y l := by
        rw [comb_add, comb_single hD]
      rw [this]
      unfold comb
      funext c
      rw [Hyper.scalar_apply, Finset.sum_apply, Finset.sum_apply, smul_sum]
      refine sum_congr rfl fun l _ => ?_
      rw [multiply_scalar, Hyper.scalar_apply]

/-- The outer loop either ends, or stops at a column that is zero. -/
theorem inv_run (hd : d = 1 ∨ d = 2 ∨ d = 4) (hsq : ∀ x, 0 ≤ x → SolveLoop.Spec.SqrtAt sqrt x)
    {A : Hyp d (Fin n) (Fin m) R} :
    ∀ (l2 l1 : List (Fin m)) (Q : Hyp d (Fin n) (Fin m) R), List.finRange m = l1 ++ l2 →
      Inv A Q l1.length →
      (∃ Q', l2.foldlM (step sqrt) Q = some Q' ∧ Inv A Q' m) ∨
      (l2.foldlM (step sqrt) Q = none ∧ ∃ (i : Fin m) (Q' : Hyp d (Fin n) (Fin m) R), Inv A Q' i.1 ∧
        column Q' i = 0) := by
  intro l2
  induction l2 with
  | nil =>
    intro l1 Q h hI
    have hm : l1.length = m := by
      have := congrArg List.length h
      simpa using this.symm
    rw [hm] at hI
    exact .inl ⟨Q, rfl, hI⟩
  | cons i l2 ih =>
    intro l1 Q h hI
    have hi : i.1 = l1.length := by
      have hlt : l1.length < m := by
        have := congrArg List.length h
        simp at this
        omega
      have h2 : (List.finRange m)[l1.length]'(by simpa using hlt) = i := by
        simp [h]
      rw [← h2]
      simp
    rw [List.foldlM_cons]
    rw [← hi] at hI
    cases hs : step sqrt Q i with
    | some Q' =>
      have hI' := inv_step hd hsq hI hs
      have := ih (l1 ++ [i]) Q' (by simp [h]) (by simpa [← hi] using hI')
      simpa using this
    | none =>
      refine .inr ⟨rfl, i, Q, hI, ?_⟩
      unfold step at hs
      simp only at hs
      by_cases hn : sqrt (traceInner (column Q i) (column Q i)) = 0
      · have hnn : 0 ≤ traceInner (column Q i) (column Q i) := by
          rw [traceInner_flat]
          exact sum_nonneg fun _ _ => mul_self_nonneg _
        have h2 := (hsq _ hnn).2
        rw [hn, mul_zero, traceInner_flat] at h2
        exact flat_injective ((dotProduct_self_eq_zero.1 h2.symm).trans rfl)
      · rw [if_neg hn] at hs
        cases hs

theorem inv_spec (hd : d = 1 ∨ d = 2 ∨ d = 4) {A Q : Hyp d (Fin n) (Fin m) R} (h : Inv A Q m) :
    Spec.Orthonormal Q ∧ Spec.Triangular A Q := by
  refine ⟨(orthonormal_iff Q).2 fun k l => h.orth k k.2 l, ?_⟩
  choose z h1 h2 h3 using fun k : Fin m => h.done k k.2
  refine ⟨build z, ?_, ?_, ?_⟩
  · funext c
    ext r k
    rw [multiply_comb]
    simp only [entry_build]
    exact congrFun (congrFun (congrFun (h3 k) c) r) ()
  · intro c l k hkl
    simp [build, h1 k l hkl]
  · intro c k
    obtain ⟨a, ha, e⟩ := h2 k
    by_cases hc : c.1 = 0
    · simp [build, hc, e, scalarMultiply, identity, ha]
    · simp [build, hc, e, scalarMultiply, identity]

/-- A zero column gives a combination that vanishes. -/
theorem inv_dependent (hd : d = 1 ∨ d = 2 ∨ d = 4) {A Q : Hyp d (Fin n) (Fin m) R} {i : Fin m}
    (h : Inv A Q i.1) (h0 : column Q i = 0) : ¬ Spec.Independent A := by
  have hD := dim_of_assoc hd
  have hd0 : 0 < d := by omega
  intro hind
  obtain ⟨z, hz, e⟩ := h.rest i le_rfl
  have hc : comb A (fun l => (if l = i then identity d else 0) + z l) = 0 := by
    rw [comb_add, comb_single hD, ← e, h0]
  have := hind (build fun _ l => (if l = i then identity d else 0) + z l) (by
    rw [multiply_column]
    simp only [entry_build]
    exact hc)
  have := congrFun (congrFun (congrFun this ⟨0, hd0⟩) i) ()
  simp [build, hz i le_rfl, identity] at this

theorem orthonormal_injective (hd : d = 1 ∨ d = 2 ∨ d = 4) {Q : Hyp d (Fin n) (Fin m) R}
    (h : Spec.Orthonormal Q) {v : Hyp d (Fin m) Unit R} (h0 : multiply Q v = 0) : v = 0 := by
  have : multiply (multiply (Hyper.conjTranspose Q) Q) v = 0 := by
    rw [multiply_assoc hd, h0, multiply_zero]
  rw [h, one_multiply (dim_of_assoc hd)] at this
  exact this

/-- Columns whose combinations are orthonormal are independent. -/
theorem independent_of_triangular (hd : d = 1 ∨ d = 2 ∨ d = 4) {A Q : Hyp d (Fin n) (Fin m) R}
    (h1 : Spec.Orthonormal Q) (h2 : Spec.Triangular A Q) : Spec.Independent A := by
  obtain ⟨S, rfl, -, -⟩ := h2
  have hinj : Function.Injective (lmat S).mulVec := by
    intro x y hxy
    obtain ⟨u, rfl⟩ := flat_surjective x
    obtain ⟨v, rfl⟩ := flat_surjective y
    have h3 : lmat S *ᵥ flat (u - v) = 0 := by
      have : flat (u - v) = flat u - flat v := rfl
      rw [this, mulVec_sub, sub_eq_zero]
      exact hxy
    rw [← flat_multiply] at h3
    have h4 : multiply S (u - v) = 0 := flat_injective (h3.trans rfl)
    have := orthonormal_injective hd h1 (v := u - v) (by rw [multiply_assoc hd, h4, multiply_zero])
    rw [sub_eq_zero.1 this]
  have hu := mulVec_injective_iff_isUnit.1 hinj
  intro v hv
  obtain ⟨x, hx⟩ := (mulVec_surjective_iff_isUnit.2 hu) (flat v)
  obtain ⟨w, rfl⟩ := flat_surjective x
  rw [← flat_multiply] at hx
  have hw : multiply S w = v := flat_injective hx
  have := orthonormal_injective hd h1 (v := w) (by rw [multiply_assoc hd, hw, hv])
  rw [← hw, this, multiply_zero]

theorem orthonormal_square (hd : d = 1 ∨ d = 2 ∨ d = 4) {Q : Hyp d (Fin n) (Fin n) R}
    (h : Spec.Orthonormal Q) : multiply Q (Hyper.conjTranspose Q) = identity d := by
  have hD := dim_of_assoc hd
  refine lmat_injective hD ?_
  have h1 := congrArg lmat h
  rw [lmat_multiply hd, lmat_identity hD] at h1
  rw [lmat_multiply hd, lmat_identity hD]
  exact mul_eq_one_comm.1 h1

end Invariant

end Verif.Ortho
