import Verif.Spec.PythonWrapper
import Verif.Lemmas.CApi

/-!
# Lemmas on the Python class
-/

namespace Verif.Py

open CApi Spec

variable {R : Type}

/-- The bookkeeping agrees with the program. -/
structure Inv (s : Conex R) (N : Nat) (cs : List Con) : Prop where
  fresh : CApi.Spec.Fresh s.prog
  vars : s.prog.mgr.maxVars = N
  m : s.m = N
  eqs : s.prog.mgr.eqs.map Prod.fst = cs
  num : s.num = cs.length
  shapes : s.shapes.length = cs.length
  fits : ∀ (k : Nat) (c : Con), cs[k]? = some c → s.shapes[k]? = some (shapeOf c) ∨
    s.shapes[k]? = some ((shapeOf c).2, (shapeOf c).1)
  cone : ∀ c ∈ cs, conDualSize c = (shapeOf c).1 * (shapeOf c).2
  cost : s.prog.linearCost.length = N

theorem foldlM_getDual (s : Conex R) (f : Nat → Nat × Nat) (l : List Nat)
    (h : ∀ i ∈ l, s.getDual i = .ok (f i)) (acc : List (Nat × Nat)) :
    l.foldlM (fun l i => do let d ← s.getDual i; Outcome.ok (l ++ [d])) acc =
      .ok (acc ++ l.map f) := by
  induction l generalizing acc with
  | nil => simp
  | cons i l ih =>
    rw [List.foldlM_cons, h i (by simp)]
    simp only [Outcome.bind_ok]
    rw [ih (fun j hj => h j (by simp [hj]))]
    simp

theorem foldlM_throws (s : Conex R) (j : Nat) (hj : s.getDual j = .throws) (l : List Nat)
    (h : ∀ i ∈ l, ∃ d, s.getDual i = .ok d) (acc : List (Nat × Nat)) :
    (l ++ [j]).foldlM (fun l i => do let d ← s.getDual i; Outcome.ok (l ++ [d])) acc = .throws := by
  induction l generalizing acc with
  | nil => simp [List.foldlM_cons, hj]
  | cons i l ih =>
    obtain ⟨d, hd⟩ := h i (by simp)
    rw [List.cons_append, List.foldlM_cons, hd]
    simp only [Outcome.bind_ok]
    exact ih (fun j hj => h j (by simp [hj])) _

theorem Inv.getDual_ok {s : Conex R} {N : Nat} {cs : List Con} (h : Inv s N cs) (i : Nat)
    (hi : i < s.num) : ∃ d, s.getDual i = .ok d := by
  rw [h.num] at hi
  have hc : cs[i]? = some cs[i] := List.getElem?_eq_getElem hi
  have hs := h.fits i _ hc
  have hd := h.cone cs[i] (List.getElem_mem hi)
  have he : s.prog.mgr.eqs[i]?.map Prod.fst = some cs[i] := by
    rw [← List.getElem?_map, h.eqs, hc]
  obtain ⟨x, hx, hx'⟩ := Option.map_eq_some_iff.1 he
  unfold Conex.getDual
  rcases hs with hs | hs
  · simp only [hs, Conex.dualSize, hx, hx']
    rw [if_neg (by rw [hd]; simp)]
    exact ⟨_, rfl⟩
  · simp only [hs, Conex.dualSize, hx, hx']
    rw [if_neg (by rw [hd, Nat.mul_comm]; simp)]
    exact ⟨_, rfl⟩

theorem Inv.served {s : Conex R} {N : Nat} {cs : List Con} (h : Inv s N cs) : Served s cs := by
  have hk : ∀ (k : Nat) (c : Con), cs[k]? = some c → ∃ v, s.prog.mgr.eqs[k]? = some (c, v) := by
    intro k c hc
    rw [← h.eqs, List.getElem?_map] at hc
    cases he : s.prog.mgr.eqs[k]? with
    | none => simp [he] at hc
    | some x =>
      simp [he] at hc
      exact ⟨x.2, by rw [← hc]⟩
  let f : Nat → Nat × Nat := fun i => ((s.shapes.getD i (0, 0)).2, (s.shapes.getD i (0, 0)).1)
  have hg : ∀ i ∈ List.range s.num, s.getDual i = .ok (f i) := by
    intro i hi
    rw [List.mem_range, h.num] at hi
    have hc : cs[i]? = some cs[i] := List.getElem?_eq_getElem hi
    obtain ⟨v, hv⟩ := hk i _ hc
    have hs := h.fits i _ hc
    have hd := h.cone cs[i] (List.getElem_mem hi)
    unfold Conex.getDual
    rcases hs with hs | hs
    · have e : s.shapes.getD i (0, 0) = shapeOf cs[i] := by
        rw [List.getD_eq_getElem?_getD, hs]; rfl
      simp only [hs, Conex.dualSize, hv, f, e]
      rw [if_neg (by rw [hd]; simp)]
    · have e : s.shapes.getD i (0, 0) = ((shapeOf cs[i]).2, (shapeOf cs[i]).1) := by
        rw [List.getD_eq_getElem?_getD, hs]; rfl
      simp only [hs, Conex.dualSize, hv, f, e]
      rw [if_neg (by rw [hd, Nat.mul_comm]; simp)]
  refine ⟨(List.range s.num).map f, ?_, by simp [h.num], fun k c hc => ⟨hk k c hc, ?_⟩⟩
  · unfold Conex.getDuals
    rw [foldlM_getDual s f _ hg]
    simp
  · have hlt : k < s.num := by
      rw [h.num]
      exact (List.getElem?_eq_some_iff.1 hc).1
    have e : ((List.range s.num).map f)[k]? = some (f k) := by
      simp [hlt]
    rw [e]
    rcases h.fits k c hc with hs | hs
    · right
      simp only [f]
      rw [List.getD_eq_getElem?_getD, hs]
      rfl
    · left
      simp only [f]
      rw [List.getD_eq_getElem?_getD, hs]
      rfl

/-- What a call has to establish. -/
theorem Inv.step {s : Conex R} {N : Nat} {cs : List Con} (h : Inv s N cs) (p : Program R) (c : Con)
    (vars : List Nat) (d : Nat × Nat) (hp : CApi.Spec.Added s.prog p c vars)
    (hm : p.mgr.maxVars = s.prog.mgr.maxVars) (hi : p.initialized = s.prog.initialized)
    (hw : p.workspaces = s.prog.workspaces) (hl : p.linearCost = s.prog.linearCost)
    (hd : d = shapeOf c ∨ d = ((shapeOf c).2, (shapeOf c).1))
    (hc : conDualSize c = (shapeOf c).1 * (shapeOf c).2) (m : Int) (hN : m = N) :
    Inv (⟨p, m, s.num + 1, s.shapes ++ [d]⟩ : Conex R) N (cs ++ [c]) := by
  refine ⟨⟨by rw [hi]; exact h.fresh.1, by rw [hw]; exact h.fresh.2⟩, hm.trans h.vars, hN, ?_, ?_, ?_, ?_,
    ?_, by rw [hl]; exact h.cost⟩
  · simp only [hp.1, List.map_append, h.eqs]
    simp
  · simp [h.num]
  · simp [h.shapes]
  · intro k c' hk
    rw [List.getElem?_append] at hk
    split_ifs at hk with hlt
    · rw [List.getElem?_append_left (by rw [h.shapes]; exact hlt)]
      exact h.fits k c' hk
    · have hk0 : k = cs.length := by
        have := (List.getElem?_eq_some_iff.1 hk).1
        simp at this
        omega
      subst hk0
      simp only [Nat.sub_self, List.getElem?_cons_zero, Option.some.injEq] at hk
      subst hk
      rw [List.getElem?_append_right (by rw [h.shapes]), h.shapes]
      simpa using hd
  · intro c' hc'
    rw [List.mem_append, List.mem_singleton] at hc'
    rcases hc' with hc' | rfl
    · exact h.cone c' hc'
    · exact hc

theorem vectorArg_of {r : Nat} {c : List Nat} (hr : 2 ≤ r) (h : c = [r] ∨ c = [r, 1] ∨ c = [1, r]) :
    vectorArg c = .ok r := by
  have h1 : r ≠ 1 := by omega
  rcases h with rfl | rfl | rfl <;> simp [vectorArg, h1]

theorem npMatrix_of {r : Nat} {c : List Nat} (h : c = [r] ∨ c = [r, 1] ∨ c = [1, r]) :
    ∃ d, npMatrix c = .ok d ∧ (d = (r, 1) ∨ d = (1, r)) := by
  rcases h with rfl | rfl | rfl
  · exact ⟨_, rfl, .inr rfl⟩
  · exact ⟨_, rfl, .inl rfl⟩
  · exact ⟨_, rfl, .inr rfl⟩

theorem Inv.run {s : Conex R} {N : Nat} {cs : List Con} (h : Inv s N cs) (hN : N < 2 ^ 31) (c : Call)
    (hc : c.Fits N) : ∃ s', c.run s = .ok s' ∧ Inv s' N (cs ++ [c.con]) := by
  have hsafe : saferCast (some s.prog) = some s.prog := by
    unfold saferCast
    simp [h.fresh.1, h.fresh.2]
  cases c with
  | linear r k c =>
    obtain ⟨h2, rfl, hs⟩ := hc
    obtain ⟨d, hd1, hd2⟩ := npMatrix_of hs
    obtain ⟨p, p1, p2, -, p4, p5, p6, -, p7⟩ := add_ok s.prog (.linear r k)
    refine ⟨_, ?_, h.step p (.linear r k) _ d p2 p4 p5 p6 p7 hd2 (by simp [conDualSize, shapeOf]) (k : Int) rfl⟩
    simp only [Call.run, Conex.addLinearInequality, vectorArg_of h2 hs, Outcome.bind_ok, ne_eq,
      not_true_eq_false, if_false, addDenseLinear, p1, hd1, Option.getD_some]
  | lmi n d =>
    obtain ⟨h1, h2⟩ := hc
    obtain ⟨p, p1, p2, -, p4, p5, p6, -, p7⟩ := add_ok s.prog (.hermitian n d)
    refine ⟨_, ?_, h.step p (.hermitian n d) _ (n, n) p2 p4 p5 p6 p7 (.inl rfl)
      (by simp [conDualSize, shapeOf]) s.m h.m⟩
    have e1 : ¬ ((n : Int) < 1) := by omega
    have e2 : (d : Int) = 1 ∨ (d : Int) = 2 ∨ (d : Int) = 4 ∨ (d : Int) = 8 := by omega
    have e3 : ¬ ((d : Int) = 8 ∧ 3 < (n : Int)) := by omega
    simp only [Call.run, Conex.newLmi, CApi.newLmi, hsafe, e1, e2, e3, if_false, not_true_eq_false,
      Int.toNat_natCast, p1, Outcome.bind_ok, Bool.true_eq_false, ne_eq, Option.getD_some]
  | dense n m =>
    have hc' : m = N := hc
    subst hc'
    obtain ⟨p, p1, p2, -, p4, p5, p6, -, p7⟩ := add_ok s.prog (.denseLmi n m)
    refine ⟨_, ?_, h.step p (.denseLmi n m) _ (n, n) p2 p4 p5 p6 p7 (.inl rfl)
      (by simp [conDualSize, shapeOf]) (m : Int) rfl⟩
    simp only [Call.run, Conex.addDenseLmi, CApi.addDenseLmi, p1, Outcome.bind_ok, Option.getD_some,
      ne_eq, not_true_eq_false, or_self, if_false]
  | sparse n vars =>
    obtain ⟨h1, h2, h3⟩ := hc
    have e : (vars.map Int.ofNat).map toInt = vars.map Int.ofNat := by
      conv_rhs => rw [← List.map_id (vars.map Int.ofNat)]
      refine List.map_congr_left fun v hv => ?_
      obtain ⟨w, hw, rfl⟩ := List.mem_map.1 hv
      have := h3 w hw
      exact toInt_eq (Int.natCast_nonneg w) (by simp only [Int.ofNat_eq_natCast]; omega)
    have hv : CM.Spec.ValidVars s.prog.mgr.maxVars (vars.map Int.ofNat) := by
      refine ⟨List.Nodup.map (fun a b hab => by simpa using hab) h2, fun v hv => ?_⟩
      obtain ⟨w, hw, rfl⟩ := List.mem_map.1 hv
      have := h3 w hw
      rw [h.vars]
      exact ⟨Int.natCast_nonneg w, by simp only [Int.ofNat_eq_natCast]; omega⟩
    obtain ⟨p, p1, p2, -, p4, p5, p6, -, p7⟩ := addOn_valid s.prog (.denseLmi n vars.length)
      (vars.map Int.ofNat) hv
    refine ⟨_, ?_, h.step p (.denseLmi n vars.length) _ (n, n) p2 p4 p5 p6 p7 (.inl rfl)
      (by simp [conDualSize, shapeOf]) s.m h.m⟩
    have c1 : vars.map Int.ofNat ≠ [] := by simpa using h1
    have c2 : ¬ ∃ v ∈ vars.map Int.ofNat, s.m < v + 1 := by
      rintro ⟨v, hv, hlt⟩
      obtain ⟨w, hw, rfl⟩ := List.mem_map.1 hv
      have := h3 w hw
      rw [h.m, Int.ofNat_eq_natCast] at hlt
      omega
    have c3 : ¬ (vars.map Int.ofNat).length ≠ vars.length := by simp
    simp only [Call.run, Conex.addSparseLmi]
    rw [if_neg c1, if_neg c2, if_neg c3, if_neg (by simp)]
    simp only [CApi.addSparseLmi, e, List.length_map, p1, Outcome.bind_ok, Option.getD_some]

theorem Inv.runs {N : Nat} (hN : N < 2 ^ 31) (l : List Call) (hl : ∀ c ∈ l, c.Fits N) :
    ∀ {s : Conex R} {cs : List Con}, Inv s N cs →
      ∃ s', Spec.runs s l = .ok s' ∧ Inv s' N (cs ++ l.map Call.con) := by
  induction l with
  | nil => exact fun h => ⟨_, rfl, by simpa using h⟩
  | cons c l ih =>
    intro s cs h
    obtain ⟨s1, h1, h2⟩ := h.run hN c (hl c (by simp))
    obtain ⟨s2, h3, h4⟩ := ih (fun c hc => hl c (by simp [hc])) h2
    refine ⟨s2, ?_, by simpa using h4⟩
    simp only [Spec.runs, h1, Outcome.bind_ok, h3]

theorem new_inv [Zero R] (N : Nat) (hN : 1 ≤ N) :
    ∃ s : Conex R, Conex.new (N : Int) = .ok s ∧ Inv s N [] := by
  refine ⟨⟨Program.setNumberOfVariables (Program.new 0) N, N, 0, []⟩, ?_, ?_⟩
  · have h1 : ¬ ((N : Int) < 1) := by omega
    simp [Conex.new, setVariables, h1, saferCast, Program.new, Program.setNumberOfVariables,
      CM.Manager.setNumberOfVariables, CM.Manager.empty]
  · refine ⟨⟨rfl, rfl⟩, rfl, rfl, rfl, rfl, rfl, by simp, by simp, ?_⟩
    simp [Program.setNumberOfVariables]

/-- In general: if the bookkeeping agrees with the program, it does not after
`NewLorentzConeConstraint`. -/
theorem Inv.newSoc {s s' : Conex R} {N : Nat} {cs : List Con} (h : Inv s N cs) (n : Int)
    (id : Option Int) (hs : s.newSoc n = .ok (s', id)) : s'.getDuals = .throws := by
  have hsafe : saferCast (some s.prog) = some s.prog := by
    unfold saferCast
    simp [h.fresh.1, h.fresh.2]
  unfold Conex.newSoc CApi.newSoc at hs
  by_cases hn : n < 1
  · rw [if_pos hn] at hs
    simp [refused] at hs
  · rw [if_neg hn] at hs
    obtain ⟨p, p1, p2, -⟩ := add_ok s.prog (.soc n.toNat)
    simp only [hsafe, p1, Outcome.bind_ok, Bool.true_eq_false, if_false, ne_eq, not_true_eq_false,
      Option.getD_some] at hs
    simp only [Outcome.ok.injEq, Prod.mk.injEq] at hs
    obtain ⟨hs', -⟩ := hs
    subst hs'
    have hold : ∀ i ∈ List.range s.num,
        Conex.getDual ({ s with prog := p, num := s.num + 1 } : Conex R) i = s.getDual i := by
      intro i hi
      rw [List.mem_range, h.num, ← h.eqs, List.length_map] at hi
      unfold Conex.getDual Conex.dualSize
      simp only [p2.1, List.getElem?_append_left hi]
    have hlast : Conex.getDual ({ s with prog := p, num := s.num + 1 } : Conex R) s.num = .throws := by
      unfold Conex.getDual
      simp only
      rw [List.getElem?_eq_none (by rw [h.shapes, h.num])]
    unfold Conex.getDuals
    simp only [List.range_succ]
    refine foldlM_throws _ _ hlast _ (fun i hi => ?_) _
    rw [hold i hi]
    exact h.getDual_ok i (List.mem_range.1 hi)

end Verif.Py
