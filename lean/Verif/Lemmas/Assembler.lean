import Verif.Spec.TriangularWorkspace
import Verif.Model.Assembler
import Verif.Lemmas.TriangularWorkspace
import Verif.Lemmas.GetData
import Verif.Props.TriangularWorkspace

/-!
# Lemmas about the assembly
-/

namespace Verif.Sup

open Spec

variable {R : Type}

theorem foldl_set {β : Type} (L : List β) (addr : β → Cell) (val : β → R) (f : Cell → R)
    (h : ∀ b ∈ L, val b = f (addr b)) : ∀ (st : Store R) (c : Cell),
    (L.foldl (fun st b => st.set (addr b) (val b)) st) c =
      if c ∈ L.map addr then f c else st c := by
  induction L with
  | nil => intro st c; simp
  | cons b L ih =>
    intro st c
    rw [List.foldl_cons, ih (fun b hb => h b (List.mem_cons_of_mem _ hb))]
    by_cases hc : c ∈ L.map addr
    · rw [if_pos hc, if_pos (by simp only [List.map_cons, List.mem_cons]; exact .inr hc)]
    · rw [if_neg hc]
      by_cases hb : c = addr b
      · subst hb
        rw [if_pos (by simp)]
        simp [Store.set, h b]
      · rw [if_neg (by simp only [List.map_cons, List.mem_cons]; tauto)]
        simp [Store.set, hb]

theorem foldl_add [AddCommMonoid R] {β : Type} (L : List β) (addr : β → Cell) (val : β → R)
    (f : Cell → R) (h : ∀ b ∈ L, val b = f (addr b)) (hnd : (L.map addr).Nodup) :
    ∀ (st : Store R) (c : Cell),
    (L.foldl (fun st b => st.set (addr b) (st (addr b) + val b)) st) c =
      if c ∈ L.map addr then st c + f c else st c := by
  induction L with
  | nil => intro st c; simp
  | cons b L ih =>
    intro st c
    rw [List.map_cons, List.nodup_cons] at hnd
    rw [List.foldl_cons, ih (fun b hb => h b (List.mem_cons_of_mem _ hb)) hnd.2]
    by_cases hb : c = addr b
    · subst hb
      rw [if_neg hnd.1, if_pos (by simp)]
      simp [Store.set, h b]
    · by_cases hc : c ∈ L.map addr
      · rw [if_pos hc, if_pos (by simp only [List.map_cons, List.mem_cons]; exact .inr hc)]
        simp [Store.set, hb]
      · rw [if_neg hc, if_neg (by simp only [List.map_cons, List.mem_cons]; tauto)]
        simp [Store.set, hb]

theorem mem_lowerPairs_iff {α : Type} {l : List α} {p : α × α} :
    p ∈ lowerPairs l ↔ ∃ i j : Nat, j ≤ i ∧ l[i]? = some p.1 ∧ l[j]? = some p.2 := by
  induction l with
  | nil => simp [lowerPairs]
  | cons x xs ih =>
    rw [lowerPairs, List.mem_append, ih]
    constructor
    · rintro (h | ⟨i, j, h1, h2, h3⟩)
      · obtain ⟨y, hy, rfl⟩ := List.mem_map.1 h
        obtain ⟨i, hi⟩ := List.mem_iff_getElem?.1 hy
        exact ⟨i, 0, by omega, hi, by simp⟩
      · exact ⟨i + 1, j + 1, by omega, by simpa using h2, by simpa using h3⟩
    · rintro ⟨i, j, h1, h2, h3⟩
      cases j with
      | zero =>
        left
        simp only [List.getElem?_cons_zero, Option.some.injEq] at h3
        refine List.mem_map.2 ⟨p.1, List.mem_of_getElem? h2, ?_⟩
        rw [h3]
      | succ j =>
        cases i with
        | zero => omega
        | succ i =>
          right
          exact ⟨i, j, by omega, by simpa using h2, by simpa using h3⟩

theorem lowerPairs_map {α β : Type} (f : α → β) (l : List α) :
    lowerPairs (l.map f) = (lowerPairs l).map fun p => (f p.1, f p.2) := by
  induction l with
  | nil => rfl
  | cons x xs ih => simp [lowerPairs, ih]

theorem lowerPairs_nodup {α : Type} {l : List α} (h : l.Nodup) : (lowerPairs l).Nodup := by
  induction l with
  | nil => simp [lowerPairs]
  | cons x xs ih =>
    rw [List.nodup_cons] at h
    rw [lowerPairs, List.nodup_append]
    refine ⟨?_, ih h.2, ?_⟩
    · exact List.Nodup.map (fun a b hab => by simpa using hab) (List.nodup_cons.2 h)
    · rintro a ha b hb rfl
      obtain ⟨y, _, rfl⟩ := List.mem_map.1 ha
      exact h.1 (mem_lowerPairs hb).2

/-- The block a cell belongs to. -/
def Cell.block : Cell → Nat
  | .diag k _ _ => k
  | .off k _ _ => k

/-- Coefficient contributed to a cell by a constraint with row labels `rl`. -/
def cellCoeff [Zero R] (sz : List Nat) (sp : List (List Nat)) (G : Nat → Nat → R) (rl : Nat → Int)
    (a : Cell) : R :=
  getCoeff G (rl (coord sz sp a).1) (rl (coord sz sp a).2)

/-- The labels of a block are the row labels of its front, and other rows are fill-in. -/
structure LabelsOK (sz : List Nat) (sp : List (List Nat)) (e : Nat) (sn sep : List Int)
    (rl : Nat → Int) : Prop where
  sn_eq : sn = (List.range' (start sz e) (sz.getD e 0)).map rl
  sep_eq : sep = (sp.getD e []).map rl
  out : ∀ r, ¬ InBlock sz e r → r ∉ sp.getD e [] → rl r < 0

open scoped Classical in
theorem setLowerTri_apply [Zero R] {sz : List Nat} {sp : List (List Nat)} {e : Nat}
    {sn sep : List Int} {rl : Nat → Int} (H : LabelsOK sz sp e sn sep rl) (G : Nat → Nat → R)
    (st : Store R) (a : Cell) :
    setLowerTri G e sn st a =
      if ∃ r c, a = .diag e r c ∧ c ≤ r ∧ r < sz.getD e 0 then cellCoeff sz sp G rl a else st a := by
  have hlab : ∀ i x, sn[i]? = some x → i < sz.getD e 0 ∧ x = rl (start sz e + i) := by
    intro i x hx
    rw [H.sn_eq, List.getElem?_map] at hx
    by_cases hi : i < sz.getD e 0
    · rw [List.getElem?_range' hi] at hx
      simp at hx
      exact ⟨hi, hx.symm⟩
    · rw [List.getElem?_eq_none (by simpa using hi)] at hx
      simp at hx
  have hlab' : ∀ i, i < sz.getD e 0 → sn[i]? = some (rl (start sz e + i)) := by
    intro i hi
    rw [H.sn_eq, List.getElem?_map, List.getElem?_range' hi]
    simp
  unfold setLowerTri
  rw [foldl_set _ _ _ (cellCoeff sz sp G rl)]
  · refine if_congr ?_ rfl rfl
    rw [List.mem_map]
    constructor
    · rintro ⟨p, hp, rfl⟩
      obtain ⟨i, j, h1, h2, h3⟩ := mem_lowerPairs_iff.1 hp
      rw [List.getElem?_zipIdx] at h2 h3
      simp only [Nat.zero_add] at h2 h3
      cases hi : sn[i]? with
      | none => rw [hi] at h2; simp at h2
      | some x =>
        cases hj : sn[j]? with
        | none => rw [hj] at h3; simp at h3
        | some y =>
          rw [hi] at h2; rw [hj] at h3
          simp only [Option.map_some, Option.some.injEq] at h2 h3
          rw [← h2, ← h3]
          exact ⟨i, j, rfl, h1, (hlab i x hi).1⟩
    · rintro ⟨r, c, rfl, h1, h2⟩
      refine ⟨((rl (start sz e + r), r), (rl (start sz e + c), c)), ?_, rfl⟩
      refine mem_lowerPairs_iff.2 ⟨r, c, h1, ?_, ?_⟩
      · simp [List.getElem?_zipIdx, hlab' r h2]
      · simp [List.getElem?_zipIdx, hlab' c (by omega)]
  · intro p hp
    obtain ⟨i, j, h1, h2, h3⟩ := mem_lowerPairs_iff.1 hp
    rw [List.getElem?_zipIdx] at h2 h3
    simp only [Nat.zero_add] at h2 h3
    cases hi : sn[i]? with
    | none => rw [hi] at h2; simp at h2
    | some x =>
      cases hj : sn[j]? with
      | none => rw [hj] at h3; simp at h3
      | some y =>
        rw [hi] at h2; rw [hj] at h3
        simp only [Option.map_some, Option.some.injEq] at h2 h3
        rw [← h2, ← h3]
        rw [(hlab i x hi).2, (hlab j y hj).2]
        rfl

open scoped Classical in
theorem nested_set {β γ : Type} (L : List β) (M : List γ) (addr : β → γ → Cell) (val : β → γ → R)
    (f : Cell → R) (h : ∀ b ∈ L, ∀ c ∈ M, val b c = f (addr b c)) (st : Store R) (a : Cell) :
    (L.foldl (fun st b => M.foldl (fun st c => st.set (addr b c) (val b c)) st) st) a =
      if ∃ b ∈ L, ∃ c ∈ M, a = addr b c then f a else st a := by
  have e : (L.foldl (fun st b => M.foldl (fun st c => st.set (addr b c) (val b c)) st) st) =
      (L.flatMap fun b => M.map fun c => (b, c)).foldl
        (fun st p => st.set (addr p.1 p.2) (val p.1 p.2)) st := by
    rw [List.foldl_flatMap]
    congr 1
    funext st b
    rw [List.foldl_map]
  rw [e, foldl_set _ (fun p : β × γ => addr p.1 p.2) _ f]
  · refine if_congr ?_ rfl rfl
    simp only [List.mem_map, List.mem_flatMap, Prod.exists]
    constructor
    · rintro ⟨b, c, ⟨b', hb, c', hc, he⟩, rfl⟩
      simp only [Prod.mk.injEq] at he
      obtain ⟨rfl, rfl⟩ := he
      exact ⟨_, hb, _, hc, rfl⟩
    · rintro ⟨b, hb, c, hc, rfl⟩
      exact ⟨b, c, ⟨b, hb, c, hc, rfl⟩, rfl⟩
  · rintro ⟨b, c⟩ hp
    simp only [List.mem_flatMap, List.mem_map, Prod.mk.injEq] at hp
    obtain ⟨b', hb, c', hc, rfl, rfl⟩ := hp
    exact h _ hb _ hc

theorem getCoeff_symm [Zero R] (G : Nat → Nat → R) (i j : Int) : getCoeff G i j = getCoeff G j i := by
  unfold getCoeff
  rcases lt_trichotomy i j with h1 | h1 | h1
  · split_ifs <;> first | rfl | omega
  · subst h1; rfl
  · split_ifs <;> first | rfl | omega

open scoped Classical in
theorem setBlock_apply [Zero R] {sz : List Nat} {sp : List (List Nat)} {e : Nat}
    {sn sep : List Int} {rl : Nat → Int} (H : LabelsOK sz sp e sn sep rl) (G : Nat → Nat → R)
    (st : Store R) (a : Cell) :
    setBlock G e sn sep st a =
      if ∃ r c, a = .off e r c ∧ r < sz.getD e 0 ∧ c < (sp.getD e []).length
      then cellCoeff sz sp G rl a else st a := by
  have hsn : ∀ p ∈ sn.zipIdx, p.2 < sz.getD e 0 ∧ p.1 = rl (start sz e + p.2) := by
    rintro ⟨x, i⟩ hp
    rw [List.mk_mem_zipIdx_iff_getElem?] at hp
    rw [H.sn_eq, List.getElem?_map] at hp
    by_cases hi : i < sz.getD e 0
    · rw [List.getElem?_range' hi] at hp
      simp at hp
      exact ⟨hi, hp.symm⟩
    · rw [List.getElem?_eq_none (by simpa using hi)] at hp
      simp at hp
  have hsep : ∀ p ∈ sep.zipIdx, p.2 < (sp.getD e []).length ∧
      p.1 = rl ((sp.getD e []).getD p.2 0) := by
    rintro ⟨x, i⟩ hp
    rw [List.mk_mem_zipIdx_iff_getElem?] at hp
    rw [H.sep_eq, List.getElem?_map] at hp
    by_cases hi : i < (sp.getD e []).length
    · rw [List.getElem?_eq_getElem hi] at hp
      simp only [Option.map_some, Option.some.injEq] at hp
      refine ⟨hi, ?_⟩
      rw [List.getD_eq_getElem?_getD (l := sp.getD e []), List.getElem?_eq_getElem hi]
      exact hp.symm
    · rw [List.getElem?_eq_none (by simpa using hi)] at hp
      simp at hp
  unfold setBlock
  rw [nested_set sep.zipIdx sn.zipIdx (fun c r => .off e r.2 c.2) (fun c r => getCoeff G r.1 c.1)
    (cellCoeff sz sp G rl)]
  · refine if_congr ?_ rfl rfl
    constructor
    · rintro ⟨c, hc, r, hr, rfl⟩
      exact ⟨_, _, rfl, (hsn r hr).1, (hsep c hc).1⟩
    · rintro ⟨r, c, rfl, hr, hc⟩
      have h1 : (rl ((sp.getD e []).getD c 0), c) ∈ sep.zipIdx := by
        rw [List.mk_mem_zipIdx_iff_getElem?, H.sep_eq, List.getElem?_map,
          List.getD_eq_getElem?_getD (l := sp.getD e []), List.getElem?_eq_getElem hc]
        rfl
      have h2 : (rl (start sz e + r), r) ∈ sn.zipIdx := by
        rw [List.mk_mem_zipIdx_iff_getElem?, H.sn_eq, List.getElem?_map, List.getElem?_range' hr]
        simp
      exact ⟨_, h1, _, h2, rfl⟩
  · intro c hc r hr
    rw [(hsn r hr).2, (hsep c hc).2, getCoeff_symm]
    rfl

theorem zip_map_self {α β γ : Type} (f : α → β) (g : α → γ) (l : List α) :
    (l.map f).zip (l.map g) = l.map fun x => (f x, g x) := by
  rw [List.zip_map']

theorem scatter_apply [AddCommMonoid R] {sz : List Nat} {sp : List (List Nat)} {e : Nat}
    {sn sep : List Int} {rl : Nat → Int} (H : LabelsOK sz sp e sn sep rl) (P : Pattern sz sp)
    (G : Nat → Nat → R) {cells : List Cell}
    (hc : cells.map (coord sz sp) = lowerPairs (sp.getD e [])) (st : Store R) (a : Cell) :
    scatter G sep cells st a =
      if a ∈ cells then st a + cellCoeff sz sp G rl a else st a := by
  have hnd : cells.Nodup := by
    apply List.Nodup.of_map (coord sz sp)
    rw [hc]
    exact lowerPairs_nodup (SSorted.nodup (P.sep_sorted e))
  have hz : (lowerPairs sep).zip cells =
      cells.map fun a => ((rl (coord sz sp a).1, rl (coord sz sp a).2), a) := by
    rw [H.sep_eq, lowerPairs_map, ← hc, List.map_map]
    conv_lhs => rw [← List.map_id cells]
    rw [List.map_map, zip_map_self]
    rfl
  unfold scatter
  rw [hz, List.foldl_map]
  have := foldl_add cells id (fun a => getCoeff G (rl (coord sz sp a).1) (rl (coord sz sp a).2))
    (cellCoeff sz sp G rl) (fun b _ => rfl) (by simpa using hnd) st a
  rw [List.map_id] at this
  exact this

/-- What binding leaves in a fresh assembler with `m` variables. -/
def boundOf (m e : Nat) (sn sep : List Int) (cells : List Cell) : Bound where
  numVars := m
  direct := if sn ≠ [] ∧ m = sn.length then strictlyIncreasing sn else false
  diag := if sn ≠ [] then [(e, sn)] else []
  off := if sep ≠ [] ∧ sn ≠ [] then [(e, sn, sep)] else []
  scatter := if cells ≠ [] then [(sep, cells)] else []

/-- A fresh assembler. -/
def freshBound (m : Nat) : Bound :=
  { numVars := m, direct := false, diag := [], off := [], scatter := [] }

theorem bindOne_fresh {w : Workspace} {e : Nat} {cells : List Cell} (h : w.sepCells e = .ok cells)
    (sn sep : List Int) (m : Nat) :
    bindOne w e sn sep (freshBound m) = .ok (boundOf m e sn sep cells) := by
  unfold bindOne boundOf freshBound Bound.bindDiagonal
  rw [h]
  by_cases h1 : sn = [] <;> by_cases h2 : sep = [] <;> by_cases h3 : cells = [] <;>
    by_cases h4 : m = sn.length <;> simp [Outcome.bind, h1, h2, h3, h4]

theorem bindLoop_spec (k : Kkt) (w : Workspace) (m : Nat → Nat) (hnd : k.data.cliqueOrder.Nodup)
    (cells : Nat → List Cell) : ∀ (n : Nat) (t : Nat → Bound),
    (∀ e, e < n → ∃ (i : Nat) (sn sep : List Int), k.data.cliqueOrder[e]? = some i ∧
      k.snPos[e]? = some sn ∧ k.sepPos[e]? = some sep ∧ w.sepCells e = .ok (cells e) ∧
      t i = freshBound (m i)) →
    ∃ b, bindLoop k w n t = .ok b ∧
      (∀ (e : Nat) (i : Nat) (sn sep : List Int), e < n → k.data.cliqueOrder[e]? = some i →
        k.snPos[e]? = some sn → k.sepPos[e]? = some sep → b i = boundOf (m i) e sn sep (cells e)) ∧
      (∀ i, (∀ e, e < n → k.data.cliqueOrder[e]? ≠ some i) → b i = t i) := by
  intro n
  induction n with
  | zero => intro t _; exact ⟨t, rfl, by intro e i sn sep h; omega, fun _ _ => rfl⟩
  | succ n ih =>
    intro t h
    obtain ⟨i, sn, sep, h1, h2, h3, h4, h5⟩ := h n (by omega)
    have hne : ∀ (e i' : Nat), e < n → k.data.cliqueOrder[e]? = some i' → i' ≠ i := by
      rintro e i' he hi rfl
      obtain ⟨l1, e1⟩ := List.getElem?_eq_some_iff.1 h1
      obtain ⟨l2, e2⟩ := List.getElem?_eq_some_iff.1 hi
      have := (hnd.getElem_inj_iff).1 (e1.trans e2.symm)
      omega
    obtain ⟨b, hb, hb1, hb2⟩ := ih (Clique.upd t i (boundOf (m i) n sn sep (cells n))) (by
      intro e he
      obtain ⟨i', sn', sep', g1, g2, g3, g4, g5⟩ := h e (by omega)
      refine ⟨i', sn', sep', g1, g2, g3, g4, ?_⟩
      rw [Clique.upd, if_neg (hne e i' he g1)]
      exact g5)
    refine ⟨b, ?_, ?_, ?_⟩
    · rw [bindLoop]
      simp only [h1, h2, h3]
      rw [h5, bindOne_fresh h4]
      exact hb
    · intro e i' sn' sep' he g1 g2 g3
      by_cases hen : e < n
      · exact hb1 e i' sn' sep' hen g1 g2 g3
      · have : e = n := by omega
        subst this
        rw [h1] at g1; rw [h2] at g2; rw [h3] at g3
        simp only [Option.some.injEq] at g1 g2 g3
        subst g1; subst g2; subst g3
        rw [hb2 i (fun e' he' hcon => hne e' i he' hcon rfl)]
        simp [Clique.upd]
    · intro i' hi'
      rw [hb2 i' (fun e he => hi' e (by omega)), Clique.upd, if_neg]
      rintro rfl
      exact hi' n (by omega) h1

theorem setLowerTri_nil [Zero R] (G : Nat → Nat → R) (e : Nat) (st : Store R) :
    setLowerTri G e [] st = st := rfl

theorem setBlock_nil_rows [Zero R] (G : Nat → Nat → R) (e : Nat) (cols : List Int) (st : Store R) :
    setBlock G e [] cols st = st := by
  unfold setBlock
  simp only [List.zipIdx_nil, List.foldl_nil]
  induction cols.zipIdx with
  | nil => rfl
  | cons c l ih => rw [List.foldl_cons]; exact ih

theorem setBlock_nil_cols [Zero R] (G : Nat → Nat → R) (e : Nat) (rows : List Int) (st : Store R) :
    setBlock G e rows [] st = st := rfl

theorem scatter_nil [AddCommMonoid R] (G : Nat → Nat → R) (labels : List Int) (st : Store R) :
    scatter G labels [] st = st := by
  simp [scatter]

/-- The update without direct mapping, uniformly in the empty cases. -/
theorem updateBlocks_boundOf [AddCommMonoid R] (G : Nat → Nat → R) (m e : Nat) (sn sep : List Int)
    (cells : List Cell) (st : Store R) (hd : (boundOf m e sn sep cells).direct = false) :
    updateBlocks G (boundOf m e sn sep cells) st =
      scatter G sep cells (setBlock G e sn sep (setLowerTri G e sn st)) := by
  unfold updateBlocks
  rw [hd]
  simp only [boundOf, Bool.false_eq_true, if_false]
  by_cases h1 : sn = []
  · subst h1
    rw [setBlock_nil_rows, setLowerTri_nil]
    by_cases h3 : cells = []
    · subst h3; simp [scatter_nil]
    · simp [h3]
  · by_cases h2 : sep = []
    · subst h2
      rw [setBlock_nil_cols]
      by_cases h3 : cells = []
      · subst h3; simp [scatter_nil, h1]
      · simp [h3, h1]
    · by_cases h3 : cells = []
      · subst h3; simp [scatter_nil, h1, h2]
      · simp [h3, h1, h2]

theorem coord_mem_lowerPairs {sz : List Nat} {sp : List (List Nat)} (P : Pattern sz sp) {e r c : Nat}
    (hr : r ∈ sp.getD e []) (hc : c ∈ sp.getD e []) (h : c ≤ r) :
    (r, c) ∈ lowerPairs (sp.getD e []) := by
  obtain ⟨i, hi⟩ := List.mem_iff_getElem?.1 hr
  obtain ⟨j, hj⟩ := List.mem_iff_getElem?.1 hc
  refine mem_lowerPairs_iff.2 ⟨i, j, ?_, hi, hj⟩
  by_contra hcon
  obtain ⟨l1, e1⟩ := List.getElem?_eq_some_iff.1 hi
  obtain ⟨l2, e2⟩ := List.getElem?_eq_some_iff.1 hj
  have := List.pairwise_iff_getElem.1 (P.sep_sorted e) i j l1 l2 (by omega)
  omega

theorem getCoeff_neg_left [Zero R] (G : Nat → Nat → R) {i j : Int} (h : i < 0) :
    getCoeff G i j = 0 := by
  unfold getCoeff; rw [if_pos (.inl h)]

theorem getCoeff_neg_right [Zero R] (G : Nat → Nat → R) {i j : Int} (h : j < 0) :
    getCoeff G i j = 0 := by
  unfold getCoeff; rw [if_pos (.inr h)]

theorem valid_cell_inj {sz : List Nat} {sp : List (List Nat)} (P : Pattern sz sp) {a b : Cell}
    (ha : Valid sz sp a) (hb : Valid sz sp b) (h : coord sz sp a = coord sz sp b) : a = b := by
  have hblock : ∀ k i, k < sz.length → i < sz.getD k 0 → InBlock sz k (start sz k + i) := by
    intro k i hk hi
    refine ⟨hk, by omega, ?_⟩
    rw [start_succ _ hk]
    rw [List.getD_eq_getElem?_getD, List.getElem?_eq_getElem hk] at hi
    simpa using hi
  have hsepmem : ∀ k j, j < (sp.getD k []).length → (sp.getD k []).getD j 0 ∈ sp.getD k [] := by
    intro k j hj
    rw [List.getD_eq_getElem?_getD (l := sp.getD k []), List.getElem?_eq_getElem hj]
    exact List.getElem_mem hj
  cases a with
  | diag k i j =>
    obtain ⟨a1, a2, a3⟩ := ha
    cases b with
    | diag k' i' j' =>
      obtain ⟨b1, b2, b3⟩ := hb
      simp only [coord, Prod.mk.injEq] at h
      have e1 := hblock k i a1 a2
      rw [h.1] at e1
      have := e1.unique (hblock k' i' b1 b2)
      subst this
      have h1 : i = i' := by omega
      have h2 : j = j' := by omega
      rw [h1, h2]
    | off k' i' j' =>
      obtain ⟨b1, b2, b3⟩ := hb
      simp only [coord, Prod.mk.injEq] at h
      have e1 := hblock k j a1 a3
      rw [h.2] at e1
      have := e1.unique (hblock k' i' b1 b2)
      subst this
      have hm := (P.sep_not_own (hsepmem k j' b3)).1
      rw [← h.1] at hm
      have := (hblock k i a1 a2).2.2
      omega
  | off k i j =>
    obtain ⟨a1, a2, a3⟩ := ha
    cases b with
    | diag k' i' j' =>
      obtain ⟨b1, b2, b3⟩ := hb
      simp only [coord, Prod.mk.injEq] at h
      have e1 := hblock k i a1 a2
      rw [h.2] at e1
      have := e1.unique (hblock k' j' b1 b3)
      subst this
      have hm := (P.sep_not_own (hsepmem k j a3)).1
      rw [h.1] at hm
      have := (hblock k i' a1 b2).2.2
      omega
    | off k' i' j' =>
      obtain ⟨b1, b2, b3⟩ := hb
      simp only [coord, Prod.mk.injEq] at h
      have e1 := hblock k i a1 a2
      rw [h.2] at e1
      have := e1.unique (hblock k' i' b1 b2)
      subst this
      have h2 : i = i' := by omega
      have hnd : (sp.getD k []).Nodup := SSorted.nodup (P.sep_sorted k)
      have h3 := h.1
      rw [List.getD_eq_getElem?_getD (l := sp.getD k []), List.getElem?_eq_getElem a3,
        List.getD_eq_getElem?_getD (l := sp.getD k []), List.getElem?_eq_getElem b3] at h3
      simp only [Option.getD_some] at h3
      rw [h2, (hnd.getElem_inj_iff).1 h3]

theorem Spec.Valid.col {sz : List Nat} {sp : List (List Nat)} {a : Cell} (ha : Valid sz sp a) :
    InBlock sz a.block (coord sz sp a).2 := by
  cases a with
  | diag k i j =>
    obtain ⟨a1, a2, a3⟩ := ha
    refine ⟨a1, by simp [coord, Cell.block], ?_⟩
    simp only [coord, Cell.block]
    rw [start_succ _ a1]
    rw [List.getD_eq_getElem?_getD, List.getElem?_eq_getElem a1] at a3
    simpa using a3
  | off k i j =>
    obtain ⟨a1, a2, a3⟩ := ha
    refine ⟨a1, by simp [coord, Cell.block], ?_⟩
    simp only [coord, Cell.block]
    rw [start_succ _ a1]
    rw [List.getD_eq_getElem?_getD, List.getElem?_eq_getElem a1] at a2
    simpa using a2

/-- One non-direct update: the own block is set, later blocks are incremented. -/
theorem step_apply [AddCommMonoid R] {sz : List Nat} {sp : List (List Nat)} (P : Pattern sz sp)
    {e : Nat} {sn sep : List Int} {rl : Nat → Int} (H : LabelsOK sz sp e sn sep rl)
    (G : Nat → Nat → R) {cells : List Cell}
    (hc : cells.map (coord sz sp) = lowerPairs (sp.getD e []))
    (hv : ∀ a ∈ cells, Valid sz sp a) (st : Store R) {a : Cell} (ha : Valid sz sp a)
    (hlow : (coord sz sp a).2 ≤ (coord sz sp a).1) (hk : e ≤ a.block) :
    scatter G sep cells (setBlock G e sn sep (setLowerTri G e sn st)) a =
      if a.block = e then cellCoeff sz sp G rl a else st a + cellCoeff sz sp G rl a := by
  rw [scatter_apply H P G hc, setBlock_apply H, setLowerTri_apply H]
  have hcol : ∀ a, Valid sz sp a → InBlock sz a.block (coord sz sp a).2 := fun a ha => ha.col
  have hsepblock : ∀ v ∈ sp.getD e [], start sz (e + 1) ≤ v := fun v hv => (P.sep_not_own hv).1
  by_cases hb : a.block = e
  · rw [if_pos hb]
    have hnot : a ∉ cells := by
      intro hm
      have h1 := List.mem_map_of_mem (f := coord sz sp) hm
      rw [hc] at h1
      have h2 := hsepblock _ (mem_lowerPairs h1).2
      have h3 := (hcol a ha).2.2
      rw [hb] at h3
      omega
    rw [if_neg hnot]
    cases a with
    | diag k i j =>
      simp only [Cell.block] at hb
      subst hb
      obtain ⟨a1, a2, a3⟩ := ha
      simp only [coord] at hlow
      rw [if_neg (by rintro ⟨r, c, h, _⟩; simp at h),
        if_pos ⟨i, j, rfl, by omega, a2⟩]
    | off k i j =>
      simp only [Cell.block] at hb
      subst hb
      obtain ⟨a1, a2, a3⟩ := ha
      rw [if_pos ⟨i, j, rfl, a2, a3⟩]
  · rw [if_neg hb]
    rw [if_neg (show ¬ ∃ r c, a = .off e r c ∧ r < sz.getD e 0 ∧ c < (sp.getD e []).length by
          rintro ⟨r, c, rfl, _⟩; exact hb rfl),
        if_neg (show ¬ ∃ r c, a = .diag e r c ∧ c ≤ r ∧ r < sz.getD e 0 by
          rintro ⟨r, c, rfl, _⟩; exact hb rfl)]
    by_cases hm : a ∈ cells
    · rw [if_pos hm]
    · rw [if_neg hm]
      have hz : cellCoeff sz sp G rl a = 0 := by
        have hcb : ¬ InBlock sz e (coord sz sp a).2 := fun h => hb ((hcol a ha).unique h)
        have hrb : ¬ InBlock sz e (coord sz sp a).1 := by
          intro h
          have h1 := h.2.2
          have h2 := (hcol a ha).2.1
          have h3 := start_mono sz (show e + 1 ≤ a.block by omega)
          omega
        by_cases hcs : (coord sz sp a).2 ∈ sp.getD e []
        · by_cases hrs : (coord sz sp a).1 ∈ sp.getD e []
          · exfalso
            have h1 := coord_mem_lowerPairs P hrs hcs hlow
            rw [← hc] at h1
            obtain ⟨b, hb1, hb2⟩ := List.mem_map.1 h1
            exact hm (valid_cell_inj P ha (hv b hb1) hb2.symm ▸ hb1)
          · exact getCoeff_neg_left G (H.out _ hrb hrs)
        · exact getCoeff_neg_right G (H.out _ hcb hcs)
      rw [hz, add_zero]

/-- A direct update with identity labels has the same effect. -/
theorem direct_apply [AddCommMonoid R] {sz : List Nat} {sp : List (List Nat)} (P : Pattern sz sp)
    {e : Nat} {sn sep : List Int} {rl : Nat → Int} (H : LabelsOK sz sp e sn sep rl)
    (G : Nat → Nat → R) {cells : List Cell} {m : Nat} (hm : m = sz.getD e 0)
    (hid : ∀ r, r < m → rl (start sz e + r) = r) (hneg : ∀ v ∈ sp.getD e [], rl v < 0)
    (hd : (boundOf m e sn sep cells).direct = true) (st : Store R) {a : Cell} (ha : Valid sz sp a)
    (hlow : (coord sz sp a).2 ≤ (coord sz sp a).1) (hk : e ≤ a.block) :
    updateBlocks G (boundOf m e sn sep cells) st a =
      if a.block = e then cellCoeff sz sp G rl a else st a + cellCoeff sz sp G rl a := by
  have hsn : sn ≠ [] := by
    rintro rfl
    simp [boundOf] at hd
  have hdense : ∀ st a, setDense G e m st a =
      if ∃ c ∈ List.range m, ∃ r ∈ List.range m, a = .diag e r c then
        (match a with | .diag _ r c => G r c | .off _ r c => G r c) else st a := by
    intro st a
    classical
    unfold setDense
    rw [nested_set (List.range m) (List.range m) (fun c r => .diag e r c) (fun c r => G r c)
      (fun a => match a with | .diag _ r c => G r c | .off _ r c => G r c) (fun _ _ _ _ => rfl)]
  have hzero : ∀ (st : Store R) a, zeroBlock e sn.length sep.length st a =
      if ∃ c ∈ List.range sep.length, ∃ r ∈ List.range sn.length, a = .off e r c then 0 else st a := by
    intro st a
    classical
    unfold zeroBlock
    rw [nested_set (List.range sep.length) (List.range sn.length) (fun c r => .off e r c)
      (fun c r => (0 : R)) (fun a => 0) (fun _ _ _ _ => rfl)]
  have hsnl : sn.length = sz.getD e 0 := by rw [H.sn_eq]; simp
  have hsepl : sep.length = (sp.getD e []).length := by rw [H.sep_eq]; simp
  have hupd : updateBlocks G (boundOf m e sn sep cells) st a =
      zeroBlock e sn.length sep.length (setDense G e m st) a := by
    unfold updateBlocks
    rw [hd]
    simp only [boundOf, if_true]
    rw [if_pos hsn]
    by_cases hs : sep = []
    · subst hs
      simp [zeroBlock]
    · rw [if_pos ⟨hs, hsn⟩]
      simp
  rw [hupd, hzero, hdense]
  have hcolneg : a.block ≠ e → rl (coord sz sp a).2 < 0 := by
    intro hb
    by_cases h : (coord sz sp a).2 ∈ sp.getD e []
    · exact hneg _ h
    · exact H.out _ (fun h' => hb (ha.col.unique h')) h
  by_cases hb : a.block = e
  · rw [if_pos hb]
    cases a with
    | diag k r c =>
      simp only [Cell.block] at hb
      subst hb
      obtain ⟨a1, a2, a3⟩ := ha
      simp only [coord] at hlow
      rw [if_neg (by rintro ⟨c', _, r', _, h⟩; simp at h),
        if_pos ⟨c, List.mem_range.2 (by omega), r, List.mem_range.2 (by omega), rfl⟩]
      simp only [cellCoeff, coord]
      rw [hid r (by omega), hid c (by omega)]
      unfold getCoeff
      rw [if_neg (by omega), if_pos (by omega)]
      simp
    | off k r c =>
      simp only [Cell.block] at hb
      subst hb
      obtain ⟨a1, a2, a3⟩ := ha
      rw [if_pos ⟨c, List.mem_range.2 (by omega), r, List.mem_range.2 (by omega), rfl⟩]
      simp only [cellCoeff, coord]
      rw [getCoeff_neg_left]
      apply hneg
      rw [List.getD_eq_getElem?_getD (l := sp.getD k []), List.getElem?_eq_getElem a3]
      exact List.getElem_mem a3
  · rw [if_neg hb, if_neg (by rintro ⟨c', _, r', _, rfl⟩; exact hb rfl),
      if_neg (by rintro ⟨c', _, r', _, rfl⟩; exact hb rfl)]
    rw [cellCoeff, getCoeff_neg_right _ (hcolneg hb), add_zero]

/-- The assembly loop sums the contributions. -/
theorem assembleLoop_spec [AddCommMonoid R] {sz : List Nat} {sp : List (List Nat)}
    (order : List Nat) (G : Nat → Nat → Nat → R) (b : Nat → Bound) (cc : Nat → Cell → R) :
    ∀ (n : Nat) (st : Store R),
    (∀ e, e < n → ∃ i : Nat, order[e]? = some i ∧ ∀ (st : Store R) (a : Cell), Valid sz sp a →
      (coord sz sp a).2 ≤ (coord sz sp a).1 →
      (e ≤ a.block → updateBlocks (G i) (b i) st a =
        if a.block = e then cc e a else st a + cc e a) ∧ (a.block < e → cc e a = 0)) →
    ∃ st', assembleLoop order G b n st = .ok st' ∧ ∀ a, Valid sz sp a →
      (coord sz sp a).2 ≤ (coord sz sp a).1 →
      st' a = (if n ≤ a.block then st a else 0) + ((List.range n).map fun e => cc e a).sum := by
  intro n
  induction n with
  | zero => intro st _; exact ⟨st, rfl, by intro a _ _; simp⟩
  | succ n ih =>
    intro st h
    obtain ⟨i, hi, hn⟩ := h n (by omega)
    obtain ⟨st', h1, h2⟩ := ih (updateBlocks (G i) (b i) st) (fun e he => h e (by omega))
    refine ⟨st', ?_, ?_⟩
    · rw [assembleLoop]; simp only [hi]; exact h1
    · intro a ha hl
      rw [h2 a ha hl, List.range_succ, List.map_append, List.sum_append]
      obtain ⟨g1, g2⟩ := hn st a ha hl
      simp only [List.map_cons, List.map_nil, List.sum_cons, List.sum_nil, add_zero]
      by_cases h3 : n ≤ a.block
      · rw [if_pos h3, g1 h3]
        by_cases h4 : a.block = n
        · rw [if_pos h4, if_neg (by omega), zero_add, add_comm]
        · rw [if_neg h4, if_pos (by omega), add_assoc, add_comm (cc n a)]
      · rw [if_neg h3, if_neg (by omega), g2 (by omega), add_zero]

theorem strictlyIncreasing_iff (l : List Int) :
    strictlyIncreasing l = true ↔ l.IsChain (· < ·) := by
  induction l with
  | nil => simp [strictlyIncreasing]
  | cons x l ih =>
    cases l with
    | nil => simp [strictlyIncreasing]
    | cons y l => simp [strictlyIncreasing, ih]

/-- A strictly increasing list of `n` integers in `[0, n)` is `0, …, n - 1`. -/
theorem increasing_eq_range (l : List Int) (hs : l.Pairwise (· < ·)) (n : Nat)
    (hlen : l.length = n) (hb : ∀ x ∈ l, 0 ≤ x ∧ x < n) (i : Nat) (hi : i < l.length) :
    l[i] = i := by
  have h1 : ∀ i (hi : i < l.length), (i : Int) ≤ l[i] := by
    intro i
    induction i with
    | zero => intro hi; exact (hb _ (List.getElem_mem hi)).1
    | succ i ih =>
      intro hi
      have := ih (by omega)
      have := List.pairwise_iff_getElem.1 hs i (i + 1) (by omega) hi (by omega)
      push_cast; omega
  have h2 : ∀ d i (hi : i < l.length), i + d + 1 = n → l[i] ≤ (i : Int) := by
    intro d
    induction d with
    | zero =>
      intro i hi h
      have := (hb _ (List.getElem_mem hi)).2
      omega
    | succ d ih =>
      intro i hi h
      have := ih (i + 1) (by omega) (by omega)
      have := List.pairwise_iff_getElem.1 hs i (i + 1) hi (by omega) (by omega)
      omega
  have := h1 i hi
  have := h2 (n - i - 1) i hi (by omega)
  omega

end Verif.Sup
