import Verif.Lemmas.Assembler
import Verif.Spec.Assembler

/-!
# The assembled matrix is the sum of the constraint matrices
-/

namespace Verif.Sup

open Verif.Clique Spec

variable {R : Type}

/-- Label of unknown `v` in a constraint on `L`. -/
def labOf (L : List Nat) (v : Nat) : Int := if v ∈ L then (L.idxOf v : Int) else -1

/-- Label of row `r` of the factored matrix, whose row `r` is unknown `V[r]`. -/
def rowLab (V L : List Nat) (r : Nat) : Int :=
  match V[r]? with
  | some v => labOf L v
  | none => -1

theorem labOf_nonneg {L : List Nat} {v : Nat} : 0 ≤ labOf L v ↔ v ∈ L := by
  unfold labOf
  split_ifs with h
  · simp [h]
  · simp [h]

theorem labOf_inj {L : List Nat} {u v : Nat} (hu : 0 ≤ labOf L u) (h : labOf L u = labOf L v) :
    u = v := by
  have hu' := labOf_nonneg.1 hu
  have hv' := labOf_nonneg.1 (h ▸ hu)
  unfold labOf at h
  rw [if_pos hu', if_pos hv'] at h
  exact (List.idxOf_inj hu').1 (by exact_mod_cast h)

theorem labOf_lt {L : List Nat} {v : Nat} : labOf L v < L.length := by
  unfold labOf
  split_ifs with h
  · exact_mod_cast List.idxOf_lt_length_of_mem h
  · have : (0 : Int) ≤ L.length := by simp
    omega

theorem getCoeff_labOf [Zero R] (L : List Nat) (G : Nat → Nat → R) (u v : Nat) :
    getCoeff G (labOf L u) (labOf L v) = entry L G u v := by
  unfold entry
  by_cases hu : u ∈ L
  · by_cases hv : v ∈ L
    · rw [if_pos ⟨hu, hv⟩]
      simp only [labOf, hu, hv, if_true, getCoeff]
      rw [if_neg (by omega)]
      split_ifs with h
      · have h' : L.idxOf v ≤ L.idxOf u := by exact_mod_cast h
        rw [max_eq_left h', min_eq_right h']
        simp
      · have h' : L.idxOf u ≤ L.idxOf v := by omega
        rw [max_eq_right h', min_eq_left h']
        simp
    · rw [if_neg (by tauto)]
      exact getCoeff_neg_right G (by unfold labOf; rw [if_neg hv]; omega)
  · rw [if_neg (by tauto)]
    exact getCoeff_neg_left G (by unfold labOf; rw [if_neg hu]; omega)

theorem rowLab_posOf {order : List Nat} {sn : Nat → List Nat} {L : List Nat} {v : Nat}
    (hv : v ∈ order.flatMap sn) :
    rowLab (order.flatMap sn) L (posOf order sn v) = labOf L v := by
  unfold rowLab
  rw [getElem?_posOf hv]

theorem cliqueLabels_eq {c p d : List Nat} (h : c = p ++ d) : cliqueLabels c d = c := by
  subst h
  simp [cliqueLabels]

section

variable {cs duals : List (List Nat)} {d : MatrixData} {sn sep : Nat → List Nat} {numVars : Nat}

/-- Labels of the block at position `e`. -/
theorem DataOK.labels (D : DataOK cs d sn sep numVars) (hlen : duals.length = cs.length)
    (hdual : ∀ (i : Nat) (c dv : List Nat), cs[i]? = some c → duals[i]? = some dv →
      ∃ p, c = p ++ dv) {e i : Nat} (he : d.cliqueOrder[e]? = some i) :
    ∃ snl sepl c, (relabelAll cs duals d.cliqueOrder d.snLabels)[e]? = some snl ∧
      (relabelAll cs duals d.cliqueOrder d.sepLabels)[e]? = some sepl ∧
      cs[i]? = some c ∧ cliqueAt cs i = c ∧
      LabelsOK d.supernodeSize (d.cliqueOrder.map (sepP d.cliqueOrder sn sep)) e snl sepl
        (rowLab (d.cliqueOrder.flatMap sn) c) ∧
      snl = (sn i).map (labOf c) := by
  have hio := List.mem_of_getElem? he
  have hil : i < cs.length := List.mem_range.1 (D.perm.mem_iff.1 hio)
  have hc := List.getElem?_eq_getElem hil
  generalize cs[i] = c at hc
  have hca := (cliqueAt_of_getElem? hc).1
  have hdl : i < duals.length := by omega
  have hdv := List.getElem?_eq_getElem hdl
  generalize duals[i] = dv at hdv
  obtain ⟨p, hp⟩ := hdual i c dv hc hdv
  have hlab : cliqueLabels (cliqueAt cs i) (cliqueAt duals i) = c := by
    rw [hca, (cliqueAt_of_getElem? hdv).1]
    exact cliqueLabels_eq hp
  have hsz : d.supernodeSize.getD e 0 = (sn i).length := by
    rw [D.sizes, List.getD_eq_getElem?_getD, List.getElem?_map, he]; rfl
  have hsp : (d.cliqueOrder.map (sepP d.cliqueOrder sn sep)).getD e [] = sepP d.cliqueOrder sn sep i := by
    rw [List.getD_eq_getElem?_getD, List.getElem?_map, he]; rfl
  have hr := D.parts.block_range (split_at he)
  rw [← start_order, ← D.sizes] at hr
  have hel : e < d.supernodeSize.length := by
    rw [D.sizes, List.length_map]; exact (List.getElem?_eq_some_iff.1 he).1
  refine ⟨(sn i).map (labOf c), (sepO d.cliqueOrder sn sep i).map (labOf c), c, ?_, ?_, hc, hca,
    ⟨?_, ?_, ?_⟩, rfl⟩
  · rw [relabelAll, D.snLabels, List.getElem?_zipWith, List.getElem?_map, he]
    simp only [Option.map_some, hlab]
    rfl
  · rw [relabelAll, D.sepLabels, List.getElem?_zipWith, List.getElem?_map, he]
    simp only [Option.map_some, hlab]
    rfl
  · rw [hsz, ← hr, List.map_map]
    exact List.map_congr_left (fun v hv => (rowLab_posOf (D.parts.mem_flat hio hv)).symm)
  · rw [hsp, ← D.parts.sepO_map hio, List.map_map]
    exact List.map_congr_left (fun v hv => (rowLab_posOf
      (D.parts.sepmem i hio v ((D.parts.sepO_perm hio).mem_iff.1 hv))).symm)
  · intro r hnb hns
    by_contra hcon
    unfold rowLab at hcon
    cases hv : (d.cliqueOrder.flatMap sn)[r]? with
    | none => rw [hv] at hcon; simp at hcon
    | some v =>
      rw [hv] at hcon
      have hvc : v ∈ c := labOf_nonneg.1 (not_lt.1 hcon)
      have hpos := D.parts.posOf_getElem hv
      rcases D.front i c hc v hvc with h | h
      · apply hnb
        have hm : posOf d.cliqueOrder sn v ∈ (sn i).map (posOf d.cliqueOrder sn) :=
          List.mem_map_of_mem h
        rw [hr, hpos, List.mem_range'_1] at hm
        refine ⟨hel, hm.1, ?_⟩
        rw [start_succ _ hel]
        have : d.supernodeSize[e] = (sn i).length := by
          rw [← hsz, List.getD_eq_getElem?_getD, List.getElem?_eq_getElem hel]; rfl
        omega
      · apply hns
        rw [hsp]
        exact mem_sepP.2 ⟨v, h, hpos⟩

end

theorem exists_cell_of_front {sz : List Nat} {sp : List (List Nat)} (P : Pattern sz sp)
    {cells : List Cell} {e : Nat} (hc : cells.map (coord sz sp) = lowerPairs (sp.getD e []))
    (hv : ∀ a ∈ cells, Valid sz sp a) {r c : Nat} (hr : InBlock sz e r ∨ r ∈ sp.getD e [])
    (hc' : InBlock sz e c ∨ c ∈ sp.getD e []) (hle : c ≤ r) :
    ∃ a, Valid sz sp a ∧ coord sz sp a = (r, c) := by
  have hoff : ∀ v, InBlock sz e v → v - start sz e < sz.getD e 0 := by
    intro v hv
    obtain ⟨h1, h2, h3⟩ := hv
    rw [start_succ _ h1] at h3
    rw [List.getD_eq_getElem?_getD, List.getElem?_eq_getElem h1]
    simp only [Option.getD_some]
    omega
  rcases hc' with hcb | hcs
  · rcases hr with hrb | hrs
    · refine ⟨.diag e (r - start sz e) (c - start sz e), ⟨hcb.1, hoff r hrb, hoff c hcb⟩, ?_⟩
      have := hrb.2.1
      have := hcb.2.1
      simp only [coord, Prod.mk.injEq]
      omega
    · refine ⟨.off e (c - start sz e) ((sp.getD e []).idxOf r), ⟨hcb.1, hoff c hcb,
        List.idxOf_lt_length_of_mem hrs⟩, ?_⟩
      have := hcb.2.1
      simp only [coord, Prod.mk.injEq]
      refine ⟨?_, by omega⟩
      rw [List.getD_eq_getElem?_getD (l := sp.getD e []),
        List.getElem?_eq_getElem (List.idxOf_lt_length_of_mem hrs)]
      simp
  · have hrs : r ∈ sp.getD e [] := by
      rcases hr with hrb | hrs
      · have := (P.sep_not_own hcs).1
        have := hrb.2.2
        omega
      · exact hrs
    have := coord_mem_lowerPairs P hrs hcs hle
    rw [← hc] at this
    obtain ⟨a, ha, hac⟩ := List.mem_map.1 this
    exact ⟨a, hv a ha, hac⟩

theorem map_range_getD {β : Type} (l : List Nat) (f : Nat → β) :
    (List.range l.length).map (fun e => f (l.getD e 0)) = l.map f := by
  apply List.ext_getElem
  · simp
  · intro n h1 h2
    simp only [List.length_map, List.length_range] at h1
    simp [h1]

theorem assemble_spec [AddCommMonoid R] {cs duals : List (List Nat)}
    (hnd : ∀ c ∈ cs, c.Nodup) (hlen : duals.length = cs.length)
    (hdual : ∀ (i : Nat) (c dv : List Nat), cs[i]? = some c → duals[i]? = some dv → ∃ p, c = p ++ dv)
    {k : Kkt} (hk : kktInit cs duals = .ok k) (hgood : NoShift k) (G : Nat → Nat → Nat → R)
    (st : Store R) :
    ∃ w st', assemble k G st = .ok (w, st') ∧
      ∀ u v, (∃ c ∈ cs, u ∈ c) → (∃ c ∈ cs, v ∈ c) →
        kktMatrix k w st' u v = .ok (total cs G u v) := by
  -- unpack the construction
  unfold kktInit at hk
  cases hroot : getRootNode cs duals with
  | throws => rw [hroot] at hk; simp [Outcome.bind] at hk
  | ub => rw [hroot] at hk; simp [Outcome.bind] at hk
  | diverges => rw [hroot] at hk; simp [Outcome.bind] at hk
  | ok root =>
  rw [hroot] at hk
  simp only [Outcome.bind] at hk
  cases hd : getData cs (some (isEmptyVec duals)) root with
  | throws => rw [hd] at hk; simp at hk
  | ub => rw [hd] at hk; simp at hk
  | diverges => rw [hd] at hk; simp at hk
  | ok d =>
  rw [hd] at hk
  simp only [Outcome.ok.injEq] at hk
  subst hk
  obtain ⟨sn, sep, nv, D⟩ := getData_spec hnd hd
  have P := D.pattern
  have hol : d.cliqueOrder.length = cs.length := by simpa using D.perm.length_eq
  have hszl : d.supernodeSize.length = cs.length := by rw [D.sizes, List.length_map, hol]
  have hne : cs ≠ [] := by
    rintro rfl
    cases duals with
    | nil => simp [getRootNode] at hroot
    | cons _ _ => simp at hlen
  have hszne : d.supernodeSize ≠ [] := by
    intro h0
    rw [h0] at hszl
    exact hne (List.length_eq_zero_iff.1 (by simpa using hszl.symm))
  have hpath : IsPath d.supernodeSize (d.cliqueOrder.map (sepP d.cliqueOrder sn sep)) d.cliques := by
    refine ⟨by rw [D.cliques, List.length_map, hol, hszl], ?_⟩
    intro e size s h1 h2
    have hel : e < d.cliqueOrder.length := by
      have := (List.getElem?_eq_some_iff.1 h1).1; omega
    have he := List.getElem?_eq_getElem hel
    generalize d.cliqueOrder[e] = i at he
    have hr := D.parts.block_range (split_at he)
    rw [← start_order, ← D.sizes] at hr
    rw [D.sizes, List.getElem?_map, he] at h1
    rw [List.getElem?_map, he] at h2
    simp only [Option.map_some, Option.some.injEq] at h1 h2
    rw [D.cliques, List.getElem?_map, he, ← h1, ← h2, ← hr]
    rfl
  obtain ⟨w, hw, hcells⟩ := C17_separator_cells _ _ _ P hpath hszne
  obtain ⟨w', hw', hget⟩ := C17_get _ _ _ P hpath hszne
  rw [hw] at hw'
  simp only [Outcome.ok.injEq] at hw'
  subst hw'
  generalize hsp : d.cliqueOrder.map (sepP d.cliqueOrder sn sep) = sp at *
  generalize hV : d.cliqueOrder.flatMap sn = V at *
  -- the separator cells
  have hcells' : ∀ e, ∃ cells, e < cs.length → w.sepCells e = .ok cells ∧
      cells.map (coord d.supernodeSize sp) = lowerPairs (sp.getD e []) ∧
      ∀ a ∈ cells, Valid d.supernodeSize sp a := by
    intro e
    by_cases he : e < cs.length
    · have hel : e < sp.length := by rw [P.len, hszl]; exact he
      obtain ⟨cells, h1, h2, h3⟩ := hcells e _ (List.getElem?_eq_getElem hel)
      refine ⟨cells, fun _ => ⟨h1, ?_, h3⟩⟩
      rw [h2, List.getD_eq_getElem?_getD, List.getElem?_eq_getElem hel]
      rfl
    · exact ⟨[], fun h => absurd h he⟩
  choose cells hcells using hcells'
  -- labels
  have hlabels : ∀ e, e < cs.length → ∃ i snl sepl c, d.cliqueOrder[e]? = some i ∧
      (relabelAll cs duals d.cliqueOrder d.snLabels)[e]? = some snl ∧
      (relabelAll cs duals d.cliqueOrder d.sepLabels)[e]? = some sepl ∧
      cs[i]? = some c ∧ cliqueAt cs i = c ∧
      LabelsOK d.supernodeSize sp e snl sepl (rowLab V c) ∧ snl = (sn i).map (labOf c) := by
    intro e he
    have hel : e < d.cliqueOrder.length := by omega
    obtain ⟨snl, sepl, c, h1, h2, h3, h4, h5, h6⟩ :=
      D.labels hlen hdual (List.getElem?_eq_getElem hel)
    rw [hsp, hV] at h5
    exact ⟨_, snl, sepl, c, List.getElem?_eq_getElem hel, h1, h2, h3, h4, h5, h6⟩
  -- binding
  have hordnd : d.cliqueOrder.Nodup := (D.perm.nodup_iff).2 List.nodup_range
  generalize hK : (⟨cs, duals, d, relabelAll cs duals d.cliqueOrder d.snLabels,
    relabelAll cs duals d.cliqueOrder d.sepLabels, d.permutationInverse.take d.N⟩ : Kkt) = K at *
  have hKd : K.data = d := by rw [← hK]
  have hKs : K.snPos = relabelAll cs duals d.cliqueOrder d.snLabels := by rw [← hK]
  have hKp : K.sepPos = relabelAll cs duals d.cliqueOrder d.sepLabels := by rw [← hK]
  have hKc : K.cliques = cs := by rw [← hK]
  have hKt : K.pt = d.permutationInverse.take d.N := by rw [← hK]
  obtain ⟨b, hb, hb1, -⟩ := bindLoop_spec K w (fun i => (cliqueAt K.cliques i).length)
    (by rw [hKd]; exact hordnd) cells cs.length
    (fun i => freshBound (cliqueAt K.cliques i).length) (by
      intro e he
      obtain ⟨i, snl, sepl, c, h1, h2, h3, h4, h5, h6, h7⟩ := hlabels e he
      exact ⟨i, snl, sepl, by rw [hKd]; exact h1, by rw [hKs]; exact h2, by rw [hKp]; exact h3,
        (hcells e he).1, rfl⟩)
  have hbind : doBind K w = .ok b := by
    unfold doBind
    rw [← hb, hKc]
    rfl
  -- contributions
  let cc : Nat → Cell → R := fun e a =>
    cellCoeff d.supernodeSize sp (G (d.cliqueOrder.getD e 0))
      (rowLab V (cs.getD (d.cliqueOrder.getD e 0) [])) a
  obtain ⟨st', hst, hst'⟩ := assembleLoop_spec (sz := d.supernodeSize) (sp := sp) d.cliqueOrder G b
    cc cs.length st (by
      intro e he
      obtain ⟨i, snl, sepl, c, h1, h2, h3, h4, h5, h6, h7⟩ := hlabels e he
      refine ⟨i, h1, ?_⟩
      intro st a ha hl
      have hgi : d.cliqueOrder.getD e 0 = i := by rw [List.getD_eq_getElem?_getD, h1]; rfl
      have hgc : cs.getD i [] = c := by rw [List.getD_eq_getElem?_getD, h4]; rfl
      have hcc : cc e a = cellCoeff d.supernodeSize sp (G i) (rowLab V c) a := by
        simp only [cc, hgi, hgc]
      have hbi := hb1 e i snl sepl he (by rw [hKd]; exact h1) (by rw [hKs]; exact h2)
        (by rw [hKp]; exact h3)
      rw [hKc, h5] at hbi
      obtain ⟨c1, c2, c3⟩ := hcells e he
      rw [hcc, hbi]
      constructor
      · intro hle
        cases hdir : (boundOf c.length e snl sepl (cells e)).direct with
        | false =>
          rw [updateBlocks_boundOf _ _ _ _ _ _ _ hdir]
          exact step_apply P h6 (G i) c2 c3 st ha hl hle
        | true =>
          -- identity labels
          have hcond : snl ≠ [] ∧ c.length = snl.length := by
            by_contra hcon
            simp only [boundOf] at hdir
            rw [if_neg hcon] at hdir
            simp at hdir
          have hinc : snl.Pairwise (· < ·) := by
            simp only [boundOf] at hdir
            rw [if_pos hcond] at hdir
            exact List.isChain_iff_pairwise.1 ((strictlyIncreasing_iff snl).1 hdir)
          have hm1 := hgood e i snl (by rw [hKd]; exact h1) (by rw [hKs]; exact h2)
            (by rw [hKc, hgc]; exact hcond.2.symm) hinc
          have hbd : ∀ x ∈ snl, 0 ≤ x ∧ x < c.length := by
            intro x hx
            rw [h7] at hx
            obtain ⟨v, hv, rfl⟩ := List.mem_map.1 hx
            refine ⟨?_, labOf_lt⟩
            rw [labOf_nonneg]
            by_contra hvc
            apply hm1
            rw [h7]
            refine List.mem_map.2 ⟨v, hv, ?_⟩
            unfold labOf; rw [if_neg hvc]
          have hsnl : snl.length = d.supernodeSize.getD e 0 := by rw [h6.sn_eq]; simp
          have hid : ∀ r, r < c.length → rowLab V c (start d.supernodeSize e + r) = r := by
            intro r hr
            have hr' : r < snl.length := by omega
            have h8 := increasing_eq_range snl hinc c.length hcond.2.symm hbd r hr'
            have h9 : snl[r]? = some (rowLab V c (start d.supernodeSize e + r)) := by
              rw [h6.sn_eq, List.getElem?_map, List.getElem?_range' (by omega)]
              simp
            rw [List.getElem?_eq_getElem hr', h8] at h9
            simpa using h9.symm
          refine direct_apply P h6 (G i) (by omega) hid ?_ hdir st ha hl hle
          intro v hv
          by_contra hcon
          have h10 := P.sep_not_own hv
          -- the label of v is the label of an own row
          have hvlab : 0 ≤ rowLab V c v := not_lt.1 hcon
          have hlt : rowLab V c v < c.length := by
            unfold rowLab
            cases V[v]? with
            | none => simp; omega
            | some x => exact labOf_lt
          obtain ⟨r, hr⟩ : ∃ r : Nat, rowLab V c v = r := ⟨(rowLab V c v).toNat, by omega⟩
          have hrl : r < c.length := by rw [hr] at hlt; exact_mod_cast hlt
          have hrow := hid r hrl
          rw [← hr] at hrow
          -- both rows carry the same unknown
          have hVnd : V.Nodup := by rw [← hV]; exact D.parts.nodup
          have key : ∀ r, 0 ≤ rowLab V c r → ∃ x, V[r]? = some x ∧ rowLab V c r = labOf c x := by
            intro r h
            unfold rowLab at h ⊢
            cases hx : V[r]? with
            | none => rw [hx] at h; simp at h
            | some x => exact ⟨x, rfl, rfl⟩
          obtain ⟨x, hx1, hx2⟩ := key v hvlab
          obtain ⟨y, hy1, hy2⟩ := key (start d.supernodeSize e + r) (by rw [hrow]; exact hvlab)
          have hxy : x = y := labOf_inj (by rw [← hx2]; exact hvlab) (by rw [← hx2, ← hy2, hrow])
          subst hxy
          obtain ⟨l1, g1⟩ := List.getElem?_eq_some_iff.1 hx1
          obtain ⟨l2, g2⟩ := List.getElem?_eq_some_iff.1 hy1
          have heq := (hVnd.getElem_inj_iff).1 (g1.trans g2.symm)
          have hel : e < d.supernodeSize.length := by omega
          have h11 := start_succ d.supernodeSize hel
          rw [List.getD_eq_getElem?_getD, List.getElem?_eq_getElem hel] at hsnl
          simp only [Option.getD_some] at hsnl
          have := h10.1
          omega
      · intro hlt
        apply getCoeff_neg_right
        apply h6.out
        · intro h'
          exact absurd (ha.col.unique h') (by omega)
        · intro h'
          have h8 := (P.sep_not_own h').1
          have h9 := ha.col.2.2
          have := start_mono d.supernodeSize (show a.block + 1 ≤ e + 1 by omega)
          omega)
  refine ⟨w, st', ?_, ?_⟩
  · unfold assemble
    rw [hKd, hw]
    simp only [Outcome.bind]
    rw [hbind]
    simp only [hKc, hst]
  · intro u v hu hv
    have hu' := (D.occurs u).1 hu
    have hv' := (D.occurs v).1 hv
    rw [hV] at hu' hv'
    have hpt : d.permutationInverse.take d.N = V := by
      apply List.ext_getElem?
      intro i
      rw [List.getElem?_take]
      rw [D.N, hV]
      split_ifs with hlt
      · have h1 := List.getElem?_eq_getElem hlt
        rw [h1]
        exact D.q _ _ (by rw [hV]; exact h1)
      · rw [List.getElem?_eq_none (by omega)]
    -- positions
    have hpl : ∀ x, x ∈ V → V.idxOf x < d.supernodeSize.sum := by
      intro x hx
      rw [D.sizes, sum_sizes, hV]
      exact List.idxOf_lt_length_of_mem hx
    have hrl : ∀ L x, x ∈ V → rowLab V L (V.idxOf x) = labOf L x := by
      intro L x hx
      unfold rowLab
      rw [List.getElem?_eq_getElem (List.idxOf_lt_length_of_mem hx)]
      simp
    unfold kktMatrix denseSym
    rw [hKt, hpt]
    obtain ⟨o, ho, hoc⟩ := hget (max (V.idxOf u) (V.idxOf v)) (min (V.idxOf u) (V.idxOf v))
      (by have := hpl u hu'; have := hpl v hv'; omega)
      (by have := hpl u hu'; have := hpl v hv'; omega)
    rw [ho]
    simp only [Outcome.bind]
    have htot : total cs G u v =
        (d.cliqueOrder.map fun i => entry (cs.getD i []) (G i) u v).sum := by
      unfold total
      exact (D.perm.map _).sum_eq.symm
    have hent : ∀ i, entry (cs.getD i []) (G i) u v =
        getCoeff (G i) (rowLab V (cs.getD i []) (max (V.idxOf u) (V.idxOf v)))
          (rowLab V (cs.getD i []) (min (V.idxOf u) (V.idxOf v))) := by
      intro i
      rcases le_total (V.idxOf u) (V.idxOf v) with h | h
      · rw [max_eq_right h, min_eq_left h, hrl _ v hv', hrl _ u hu', getCoeff_symm, getCoeff_labOf]
      · rw [max_eq_left h, min_eq_right h, hrl _ v hv', hrl _ u hu', getCoeff_labOf]
    cases o with
    | some a =>
      obtain ⟨h1, h2, h3⟩ := (hoc a).1 rfl
      simp only [Outcome.ok.injEq]
      rw [hst' a h2 (by rw [h3]; exact h1), if_neg (by
        have := h2.col.1; omega), zero_add, htot, ← hol,
        map_range_getD d.cliqueOrder (fun i => cellCoeff d.supernodeSize sp (G i)
          (rowLab V (cs.getD i [])) a)]
      congr 1
      apply List.map_congr_left
      intro i _
      rw [hent i, cellCoeff, h3]
    | none =>
      simp only [Outcome.ok.injEq]
      rw [htot]
      symm
      apply List.sum_eq_zero
      intro x hx
      obtain ⟨i, hi, rfl⟩ := List.mem_map.1 hx
      by_contra hcon
      obtain ⟨e, hee⟩ := List.mem_iff_getElem?.1 hi
      have hel : e < cs.length := by rw [← hol]; exact (List.getElem?_eq_some_iff.1 hee).1
      obtain ⟨i', snl, sepl, c, h1, h2, h3, h4, h5, h6, h7⟩ := hlabels e hel
      rw [hee] at h1
      simp only [Option.some.injEq] at h1
      subst h1
      have hgc : cs.getD i [] = c := by rw [List.getD_eq_getElem?_getD, h4]; rfl
      rw [hent i, hgc] at hcon
      have hfront : ∀ r, ¬ rowLab V c r < 0 → InBlock d.supernodeSize e r ∨ r ∈ sp.getD e [] := by
        intro r hr
        by_contra hno
        exact hr (h6.out r (fun h => hno (.inl h)) (fun h => hno (.inr h)))
      obtain ⟨_, c2, c3⟩ := hcells e hel
      obtain ⟨a, ha, hac⟩ := exists_cell_of_front P c2 c3
        (hfront _ (fun h => hcon (getCoeff_neg_left _ h)))
        (hfront _ (fun h => hcon (getCoeff_neg_right _ h))) (min_le_max)
      have := (hoc a).2 ⟨min_le_max, ha, hac⟩
      simp at this

instance (k : Kkt) (n : Nat) : Decidable (∀ e < n, ∀ (i : Nat) (snl : List Int),
    k.data.cliqueOrder[e]? = some i → k.snPos[e]? = some snl →
    snl.length = (k.cliques.getD i []).length → snl.Pairwise (· < ·) → -1 ∉ snl) :=
  decidable_of_iff (∀ e < n, (do
      let i ← k.data.cliqueOrder[e]?
      let snl ← k.snPos[e]?
      some (decide (snl.length = (k.cliques.getD i []).length → snl.Pairwise (· < ·) → -1 ∉ snl))) ≠
        some false) (by
    constructor
    · intro h e he i snl h1 h2
      have := h e he
      rw [h1, h2] at this
      simpa using this
    · intro h e he hcon
      cases h1 : k.data.cliqueOrder[e]? with
      | none => rw [h1] at hcon; simp at hcon
      | some i =>
        cases h2 : k.snPos[e]? with
        | none => rw [h1, h2] at hcon; simp at hcon
        | some snl =>
          have := h e he i snl h1 h2
          rw [h1, h2] at hcon
          simp at hcon
          exact (this hcon.1 hcon.2.1) hcon.2.2)

theorem noShift_of_bounded {k : Kkt} {n : Nat} (hn : k.data.cliqueOrder.length ≤ n)
    (h : ∀ e < n, ∀ (i : Nat) (snl : List Int),
    k.data.cliqueOrder[e]? = some i → k.snPos[e]? = some snl →
    snl.length = (k.cliques.getD i []).length → snl.Pairwise (· < ·) → -1 ∉ snl) : NoShift k := by
  intro e i snl h1
  exact h e (lt_of_lt_of_le (List.getElem?_eq_some_iff.1 h1).1 hn) i snl h1

end Verif.Sup
