import Verif.Lemmas.PythonErrors

/-!
# C77: the error report of the Python class
-/

namespace Verif.PyErr

open Spec

/-- `ComputeErrors` on a program of vector inequalities, whose affine terms were given as arrays of one dimension, and
matrix inequalities of order at least two, in a fresh interpreter.  It returns the slacks `c - A y`, the norm of
`b - ∑ A' x` and the smallest entries or eigenvalues of slacks and multipliers, and `∑ ⟨s, x⟩` if no constraint but the
first is a vector inequality.  Partial: these conditions are needed, see below. -/
theorem C77_report_partial {R : Type} [CommRing R] [LinearOrder R] {ext : Ext R} (hl : Local ext) {m : Nat} (hm : 0 < m)
    (l : List (Con R × Mat R)) (h0 : l ≠ [])
    (hc : ∀ z ∈ l, z.1.Ok m ∧ z.2.rows = z.1.rows ∧ z.2.cols = z.1.cols) {y b : Mat R} {yv bv : Nat → R}
    (hy : IsMat y m 1 (fun i _ => yv i)) (hb : IsMat b m 1 (fun i _ => bv i) ∨ IsMat b 1 m (fun _ i => bv i)) :
    ∃ p rep cls, build m (l.map Prod.fst) (Conex.new m) = .ok p ∧
      p.computeErrors ext ⟨[], []⟩ y (l.map Prod.snd) b = .ok (rep, cls) ∧
      List.Forall₂ (fun s z => IsMat s z.1.rows z.1.cols (z.1.slack m yv)) rep.sa l ∧
      rep.residual = ext.norm m (fun j => bv j - (l.map fun z => z.1.adjoint z.2.at' j).sum) ∧
      List.Forall₂ (fun v z => z.1.IsMin ext (z.1.slack m yv) v) rep.minS l ∧
      List.Forall₂ (fun v z => z.1.IsMin ext z.2.at' v) rep.minX l ∧
      ((∀ z ∈ l.tail, z.1.vector = false) →
        rep.xDotS.at' 0 0 = (l.map fun z => z.1.inner (z.1.slack m yv) z.2.at').sum) := by
  have hp := build_ok (m := m) (l.map Prod.fst) (Conex.new m) (fun c h => by
    obtain ⟨z, hz, rfl⟩ := List.mem_map.1 h
    exact (hc z hz).1) rfl
  obtain ⟨st, e1, hi⟩ := loop_ok hl hy (cls := ⟨[], []⟩)
    (p := ⟨[] ++ (l.map Prod.fst).map (opOf m), [] ++ (l.map Prod.fst).map cOf, 0 + (l.map Prod.fst).length, m⟩)
    (xa := l.map Prod.snd) l [] ⟨none, [], ⟨1, 1, fun _ _ => 0⟩, ⟨[], []⟩⟩ hc (by simp) (by simp) (by simp)
    ⟨.inl ⟨rfl, rfl⟩, .nil, ⟨rfl, rfl, fun _ _ _ _ => rfl⟩, ⟨[], by simp, .nil⟩, ⟨[], by simp, .nil⟩⟩
  rw [List.nil_append] at hi
  obtain ⟨a, ha, a1, a2, a3⟩ : ∃ a, st.Ax = some a ∧ IsMat a m 1 (fun j _ => adjoints l j) :=
    hi.ax.resolve_left fun h => h0 h.1
  have hb' : IsMat (if b.rows < b.cols then b.transpose else b) m 1 (fun i _ => bv i) := by
    rcases hb with h | h
    · rw [if_neg (by rw [h.1, h.2.1]; omega)]; exact h
    · by_cases h1 : b.rows < b.cols
      · rw [if_pos h1]
        exact ⟨h.2.1, h.1, fun i hi j hj => h.2.2 j hj i hi⟩
      · rw [if_neg h1]
        rw [h.1, h.2.1] at h1
        have : m = 1 := by omega
        subst this
        refine ⟨h.1, h.2.1, fun i hi j hj => ?_⟩
        rw [h.2.2 i hi j hj, show i = j by omega]
  obtain ⟨d, e2, d1, d2, d3⟩ := add_ok (a := if b.rows < b.cols then b.transpose else b) (b := a.neg)
    (hb'.1.trans a1.symm) (hb'.2.1.trans a2.symm)
  obtain ⟨us, m1, m2⟩ := hi.minS
  obtain ⟨vs, m3, m4⟩ := hi.minX
  refine ⟨_, ⟨st.sa, st.xDotS, st.lists.minS, st.lists.minX, ext.norm d.rows (fun i => d.at' i 0)⟩, st.lists, hp, ?_,
    hi.sa, ?_, ?_, ?_, fun ht => ?_⟩
  · rw [Conex.computeErrors]
    simp only [Conex.new] at e1 ⊢
    rw [show List.range (0 + (l.map Prod.fst).length) = List.range' ([] : List (Con R × Mat R)).length l.length by
      simp [List.range_eq_range'], e1]
    simp only [Outcome.bind_ok]
    rw [ha]
    simp only []
    rw [e2]
    simp only [Outcome.bind_ok]
    rw [if_neg (not_not.2 (d2.trans hb'.2.1))]
  · show ext.norm d.rows _ = _
    rw [d1, hb'.1]
    refine hl.norm _ _ _ fun j hj => ?_
    rw [d3 j (hb'.1.symm ▸ hj) 0 (by rw [hb'.2.1]; exact Nat.one_pos), sub_eq_add_neg]
    show (if b.rows < b.cols then b.transpose else b).at' j 0 + -a.at' j 0 = _
    rw [hb'.2.2 j hj 0 Nat.one_pos, a3 j hj 0 Nat.one_pos]
    rfl
  · rw [m1]; simpa using m2
  · rw [m3]; simpa using m4
  · show st.xDotS.at' 0 0 = _
    rw [hi.dot.2.2 0 Nat.one_pos 0 Nat.one_pos]
    have key : ∀ (t : List (Con R × Mat R)) (a : R), (∀ z ∈ t, z.1.vector = false) →
        t.foldl (kept m yv) a = a + (t.map fun z => z.1.inner (z.1.slack m yv) z.2.at').sum := by
      intro t
      induction t with
      | nil => intro a _; simp
      | cons z t ih =>
        intro a h
        rw [List.foldl_cons, ih _ (fun w hw => h w (List.mem_cons_of_mem _ hw)), kept,
          if_neg (by rw [h z List.mem_cons_self]; simp), List.map_cons, List.sum_cons, add_assoc]
    cases l with
    | nil => exact absurd rfl h0
    | cons z t =>
      rw [List.foldl_cons, key t _ ht, List.map_cons, List.sum_cons]
      congr 1
      unfold kept
      split_ifs
      · rfl
      · rw [zero_add]

/-- The hypotheses: one inequality `y ≤ 2` and the matrix inequality `diag(1, 1) - y diag(1, 0) ≥ 0` at `y = 1`. -/
example : ∃ p rep cls, build 1 [.linear 1 (fun _ _ => 1) (fun _ => 2), .sparse 2 [0] (fun p q _ => if p = 0 ∧ q = 0 then 1 else 0)
        (fun p q => if p = q then 1 else 0)] (Conex.new 1) = .ok p ∧
    p.computeErrors (R := ℚ) ⟨fun _ _ => 0, fun n f => if 0 < n then f 0 else 0⟩ ⟨[], []⟩ ⟨1, 1, fun _ _ => 1⟩
      [⟨1, 1, fun _ _ => 3⟩, ⟨2, 2, fun p q => if p = q then 5 else 0⟩] ⟨1, 1, fun _ _ => 10⟩ = .ok (rep, cls) ∧
    rep.xDotS.at' 0 0 = 8 ∧ rep.residual = 2 := by
  obtain ⟨p, rep, cls, h1, h2, _, h4, _, _, h7⟩ := C77_report_partial (R := ℚ) (ext := ⟨fun _ _ => 0, fun n f => if 0 < n then f 0 else 0⟩)
    ⟨fun _ _ _ _ => rfl, fun n f g h => by
      by_cases hn : 0 < n
      · simp [hn, h 0 hn]
      · simp [hn]⟩ (m := 1) Nat.one_pos
    [(.linear 1 (fun _ _ => 1) (fun _ => 2), ⟨1, 1, fun _ _ => 3⟩), (.sparse 2 [0] (fun p q _ => if p = 0 ∧ q = 0 then 1 else 0)
        (fun p q => if p = q then 1 else 0), ⟨2, 2, fun p q => if p = q then 5 else 0⟩)] (by simp)
    (by simp [Con.Ok, Con.rows, Con.cols, eq_comm]) (y := ⟨1, 1, fun _ _ => 1⟩) (b := ⟨1, 1, fun _ _ => 10⟩)
    (yv := fun _ => 1) (bv := fun _ => 10) ⟨rfl, rfl, fun _ _ _ _ => rfl⟩ (.inl ⟨rfl, rfl, fun _ _ _ _ => rfl⟩)
  refine ⟨p, rep, cls, h1, h2, ?_, ?_⟩
  · rw [h7 (by simp [Con.vector])]
    simp [Con.inner, Con.slack, Finset.sum_range_succ]
    norm_num
  · rw [h4]
    simp [Con.adjoint, Finset.sum_range_succ]
    norm_num

/-- The inner product of all vector inequalities but the last is lost: two times `y ≤ 1` at `y = 0` with multipliers 1
have `⟨s, x⟩ = 2`, and 1 is reported. -/
theorem C77_inner_violated : ∃ (l : List (Con ℤ × Mat ℤ)) (y b : Mat ℤ) (p : Conex ℤ) (rep : Report ℤ) (cls : Lists ℤ),
    (∀ z ∈ l, z.1.Ok 1 ∧ z.2.rows = z.1.rows ∧ z.2.cols = z.1.cols) ∧ IsMat y 1 1 (fun _ _ => 0) ∧
    build 1 (l.map Prod.fst) (Conex.new 1) = .ok p ∧
    p.computeErrors ⟨fun _ _ => 0, fun _ _ => 0⟩ ⟨[], []⟩ y (l.map Prod.snd) b = .ok (rep, cls) ∧
    rep.xDotS.at' 0 0 = 1 ∧ (l.map fun z => z.1.inner (z.1.slack 1 (fun _ => 0)) z.2.at').sum = 2 :=
  ⟨[(.linear 1 (fun _ _ => 1) (fun _ => 1), ⟨1, 1, fun _ _ => 1⟩), (.linear 1 (fun _ _ => 1) (fun _ => 1), ⟨1, 1, fun _ _ => 1⟩)],
    ⟨1, 1, fun _ _ => 0⟩, ⟨1, 1, fun _ _ => 0⟩, _, _, _, by simp [Con.Ok, Con.rows, Con.cols],
    ⟨rfl, rfl, fun _ _ _ _ => rfl⟩, rfl, rfl, by decide +kernel, by decide +kernel⟩

/-- The second call reports the values of the first one, too: two smallest entries for one constraint. -/
theorem C77_lists_violated : ∃ (c : Con ℤ) (x y b : Mat ℤ) (p : Conex ℤ) (r1 r2 : Report ℤ) (cls cls' : Lists ℤ),
    c.Ok 1 ∧ x.rows = c.rows ∧ x.cols = c.cols ∧ build 1 [c] (Conex.new 1) = .ok p ∧
    p.computeErrors ⟨fun _ _ => 0, fun _ _ => 0⟩ ⟨[], []⟩ y [x] b = .ok (r1, cls) ∧
    p.computeErrors ⟨fun _ _ => 0, fun _ _ => 0⟩ cls y [x] b = .ok (r2, cls') ∧
    r1.minS.length = 1 ∧ r2.minS.length = 2 :=
  ⟨.linear 1 (fun _ _ => 1) (fun _ => 1), ⟨1, 1, fun _ _ => 1⟩, ⟨1, 1, fun _ _ => 0⟩, ⟨1, 1, fun _ _ => 0⟩, _, _, _, _, _,
    by simp [Con.Ok], rfl, rfl, rfl, rfl, rfl, rfl, rfl⟩

/-- Two inequalities whose affine terms are given as a column, with multipliers of the shape that `GetDualVariables`
returns: an exception. -/
theorem C77_column_violated : ∃ (A c y x b : Mat ℤ), A.rows = c.rows ∧ c.cols = 1 ∧ IsMat y A.cols 1 (fun _ _ => 0) ∧
    (x.rows, x.cols) = (c.cols, c.rows) ∧ IsMat b A.cols 1 (fun _ _ => 0) ∧
    ((Conex.new 1).addLinearInequality A c).computeErrors ⟨fun _ _ => 0, fun _ _ => 0⟩ ⟨[], []⟩ y [x] b = .throws :=
  ⟨⟨2, 1, fun _ _ => 1⟩, ⟨2, 1, fun _ _ => 1⟩, ⟨1, 1, fun _ _ => 0⟩, ⟨1, 2, fun _ _ => 0⟩, ⟨1, 1, fun _ _ => 0⟩, rfl, rfl,
    ⟨rfl, rfl, fun _ _ _ _ => rfl⟩, rfl, ⟨rfl, rfl, fun _ _ _ _ => rfl⟩, rfl⟩

/-- Constraints that are added by the methods `New…` leave no operator behind: an exception for every `y`, `x` and `b`. -/
theorem C77_new_violated {R : Type} [CommRing R] [LinearOrder R] (ext : Ext R) (cls : Lists R) (m : Int) (order : Nat)
    (y b : Mat R) (xa : List (Mat R)) :
    ((Conex.new m).newLmi order).computeErrors ext cls y xa b = .throws ∧
    ((Conex.new m).newOther).computeErrors ext cls y xa b = .throws := ⟨rfl, rfl⟩

/-- One such constraint is enough: if there is an operator for each of the other constraints, as the methods `Add…`
see to, the report fails. -/
theorem C77_mixed_violated {R : Type} [CommRing R] [LinearOrder R] (ext : Ext R) (cls : Lists R) (p : Conex R)
    (hp : p.num = p.A.length) (order : Nat) (y b : Mat R) (xa : List (Mat R)) (r : Report R × Lists R) :
    (p.newLmi order).computeErrors ext cls y xa b ≠ .ok r ∧ p.newOther.computeErrors ext cls y xa b ≠ .ok r := by
  have key : ∀ q : Conex R, q.A = p.A → q.num = p.num + 1 → q.computeErrors ext cls y xa b ≠ .ok r := by
    intro q hA hn h
    have hloop : ∀ (l : List Nat) (st : State R), p.A.length ∈ l → ∀ st', q.errorLoop ext y xa l st ≠ .ok st' := by
      intro l
      induction l with
      | nil => intro st hl; simp at hl
      | cons i is ih =>
        intro st hl st' h
        rw [Conex.errorLoop, SolveLoop.bind_eq_ok] at h
        obtain ⟨a, h1, h2⟩ := h
        rcases List.mem_cons.1 hl with rfl | hl
        · rw [Conex.errorStep, SolveLoop.bind_eq_ok] at h1
          obtain ⟨A, h1, -⟩ := h1
          simp [get, hA] at h1
        · exact ih a hl st' h2
    rw [Conex.computeErrors, SolveLoop.bind_eq_ok] at h
    obtain ⟨st, h1, -⟩ := h
    exact hloop _ _ (List.mem_range.2 (by omega)) _ h1
  exact ⟨key _ rfl rfl, key _ rfl rfl⟩

/-- The hypothesis: a program with one inequality. -/
example : ((Conex.new 1 : Conex ℤ).addLinearInequality ⟨1, 1, fun _ _ => 1⟩ ⟨1, 1, fun _ _ => 1⟩).num =
    ((Conex.new 1 : Conex ℤ).addLinearInequality ⟨1, 1, fun _ _ => 1⟩ ⟨1, 1, fun _ _ => 1⟩).A.length := rfl

/-- The variable `-1`, which the library refuses, passes the test of `AddSparseLinearMatrixInequality`, and the report
takes it for the last variable: `5 I - y₋₁ I` at `y = (1, 2)` is `3 I`. -/
theorem C77_negative_violated : ∃ (p : Conex ℤ) (rep : Report ℤ) (cls : Lists ℤ) (s : Mat ℤ),
    (Conex.new 2).addSparseLmi 2 2 1 (fun p q _ => if p = q then 1 else 0) ⟨2, 2, fun p q => if p = q then 5 else 0⟩
      [-1] = .ok p ∧
    p.computeErrors ⟨fun _ _ => 0, fun _ _ => 0⟩ ⟨[], []⟩ ⟨2, 1, fun i _ => (i : ℤ) + 1⟩ [⟨2, 2, fun _ _ => 0⟩]
      ⟨2, 1, fun _ _ => 0⟩ = .ok (rep, cls) ∧ rep.sa = [s] ∧ s.at' 0 0 = 3 ∧ s.at' 1 1 = 3 := by
  refine ⟨_, _, _, _, rfl, rfl, rfl, ?_, ?_⟩ <;> decide +kernel

/-- Transposing an operator twice yields the transpose. -/
theorem C77_transpose_violated {R : Type} (a b c : LmiOp R) (h : a.transpose = .ok b) (h' : b.transpose = .ok c) :
    c.transposed = true := by
  rw [LmiOp.transpose, LmiOp.new] at h'
  split_ifs at h'
  · cases h'
  · injection h' with h'
    rw [← h']
    rfl

/-- The hypotheses: the operator of `y ↦ y`. -/
example : ∃ a b c : LmiOp ℤ, a.transposed = false ∧ a.transpose = .ok b ∧ b.transpose = .ok c :=
  ⟨⟨1, 1, 1, fun _ _ _ => 1, 1, [0], false⟩, _, _, rfl, rfl, rfl⟩

end Verif.PyErr
