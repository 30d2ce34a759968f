import Verif.MeshProps

/-! # Meshes that fall into parts (C183): no crosstalk between disjoint sets of rails -/

namespace Simphox

open Complex

/-- Every node lies inside the set of rails or outside it (specification). -/
def Separates (S : ℕ → Bool) (nodes : List Node) : Prop := ∀ a ∈ nodes, S a.top = S a.bottom

theorem seqApply_local (S : ℕ → Bool) (el el' : ℕ → Elements) (l : List Node) (hs : Separates S l)
    (he : ∀ a ∈ l, S a.top = true → el a.id = el' a.id) : ∀ x y : ℕ → ℂ, (∀ r, S r = true → x r = y r) →
    ∀ r, S r = true → seqApply el l x r = seqApply el' (l.filter fun a => S a.top) y r := by
  unfold seqApply
  induction l with
  | nil => intro x y h; exact h
  | cons a l ih =>
    intro x y h
    have ih' := ih (fun b hb => hs b (by simp [hb])) (fun b hb => he b (by simp [hb]))
    have hab := hs a (by simp)
    by_cases ha : S a.top = true
    · rw [List.filter_cons_of_pos (p := fun a : Node => S a.top) ha, List.foldl_cons, List.foldl_cons]
      apply ih'
      intro r hr
      simp only [nodeAct, he a (by simp) ha, h a.top ha, h a.bottom (hab ▸ ha), h r hr]
    · rw [List.filter_cons_of_neg (p := fun a : Node => S a.top) ha, List.foldl_cons]
      apply ih'
      intro r hr
      have h1 : r ≠ a.top := by rintro rfl; exact ha hr
      have h2 : r ≠ a.bottom := by rintro rfl; exact ha (hab ▸ hr)
      simp only [nodeAct, if_neg h1, if_neg h2]
      exact h r hr

theorem flatMap_columns_ge (l : List Node) (k : ℕ) (hk : numColumns l ≤ k) : columnNodes l k = [] := by
  unfold columnNodes
  rw [List.filter_eq_nil_iff]
  intro a ha
  have := column_lt_numColumns ha
  simp; omega

theorem flatMap_range_extend (l : List Node) (K : ℕ) (hK : numColumns l ≤ K) :
    (List.range K).flatMap (columnNodes l) = (List.range (numColumns l)).flatMap (columnNodes l) := by
  obtain ⟨d, rfl⟩ := Nat.exists_eq_add_of_le hK
  rw [List.range_add, List.flatMap_append]
  have : ((List.range d).map (numColumns l + ·)).flatMap (columnNodes l) = [] := by
    rw [List.flatMap_eq_nil_iff]
    intro k hk
    obtain ⟨j, -, rfl⟩ := List.mem_map.1 hk
    exact flatMap_columns_ge l _ (by omega)
  rw [this, List.append_nil]

theorem flatMap_range_extend_rev (l : List Node) (K : ℕ) (hK : numColumns l ≤ K) :
    (List.range K).reverse.flatMap (columnNodes l) = (List.range (numColumns l)).reverse.flatMap (columnNodes l) := by
  obtain ⟨d, rfl⟩ := Nat.exists_eq_add_of_le hK
  rw [List.range_add, List.reverse_append, List.flatMap_append]
  have : ((List.range d).map (numColumns l + ·)).reverse.flatMap (columnNodes l) = [] := by
    rw [List.flatMap_eq_nil_iff]
    intro k hk
    obtain ⟨j, -, rfl⟩ := List.mem_map.1 (List.mem_reverse.1 hk)
    exact flatMap_columns_ge l _ (by omega)
  rw [this, List.nil_append]

theorem filter_flatMap' (p : Node → Bool) (l : List Node) (cols : List ℕ) :
    (cols.flatMap (columnNodes l)).filter p = cols.flatMap (columnNodes (l.filter p)) := by
  rw [List.filter_flatMap]
  congr 1
  funext k
  simp only [columnNodes, List.filter_filter]
  apply List.filter_congr
  intro a _
  rw [Bool.and_comm]

/-- The visiting order of the nodes inside the set depends only on those nodes. -/
theorem visitOrder_filter (p : Node → Bool) (l l' : List Node) (h : l.filter p = l'.filter p) (back : Bool) :
    (visitOrder l back).filter p = (visitOrder l' back).filter p := by
  have key : ∀ m : List Node, (visitOrder m back).filter p = visitOrder (m.filter p) back := by
    intro m
    have hle : numColumns (m.filter p) ≤ numColumns m := by
      unfold numColumns
      split_ifs with h1 h2 h2
      · exact le_refl _
      · exact Nat.zero_le _
      · subst h2; simp at h1
      · have : ∀ (q : List Node), (∀ a ∈ q, a ∈ m) → (q.map Node.column).foldr max 0 ≤ (m.map Node.column).foldr max 0 := by
          intro q
          induction q with
          | nil => intro _; simp
          | cons a q ih =>
            intro hq
            have h3 : a.column ≤ (m.map Node.column).foldr max 0 := le_foldr_max (List.mem_map_of_mem (hq a (by simp)))
            have h4 := ih (fun b hb => hq b (by simp [hb]))
            simp only [List.map_cons, List.foldr_cons]
            omega
        have := this (m.filter p) (fun a ha => (List.mem_filter.1 ha).1)
        omega
    unfold visitOrder columnOrder
    cases back
    · simp only [Bool.false_eq_true, if_false]
      rw [filter_flatMap', flatMap_range_extend _ _ hle]
    · simp only [if_true]
      rw [filter_flatMap', flatMap_range_extend_rev _ _ hle]
  rw [key, key, h]

theorem Mesh.apply_eq_seq {n : ℕ} {M : Mesh} (h : M.WellFormed n) (P : Params) (back : Bool) (v : ℕ → ℂ) :
    M.apply P back v =
      if back then seqApply (M.elements P true) (visitOrder M.nodes true) (gammaApply P.gammas v)
      else gammaApply P.gammas (seqApply (M.elements P false) (visitOrder M.nodes false) v) := by
  cases back
  · simp only [Mesh.apply, Bool.false_eq_true, if_false]
    rw [columnsApply_eq_seq h.goodColumn]; rfl
  · simp only [Mesh.apply, if_true]
    rw [columnsApply_eq_seq h.goodColumn]; rfl

/-- C183, no crosstalk. Let `S` be a set of rails such that every node of two meshes lies inside `S` or outside
it; let the meshes have the same nodes inside `S` (in the same order), of equal errors, losses and phases, and
equal output phases on `S`, but anything at all outside. Then for inputs that agree on `S` the outputs agree on
`S`, forward and backward. -/
theorem C183_no_crosstalk {n n' : ℕ} (M M' : Mesh) (h : M.WellFormed n) (h' : M'.WellFormed n') (P P' : Params)
    (S : ℕ → Bool) (hs : Separates S M.nodes) (hs' : Separates S M'.nodes) (hstyle : M.style = M'.style)
    (hn : M.nodes.filter (fun a => S a.top) = M'.nodes.filter fun a => S a.top)
    (he : ∀ a ∈ M.nodes, S a.top = true → M.errors.getD a.id (0, 0) = M'.errors.getD a.id (0, 0) ∧
      M.losses.getD a.id (0, 0) = M'.losses.getD a.id (0, 0) ∧ P.thetas a.id = P'.thetas a.id ∧ P.phis a.id = P'.phis a.id)
    (hg : ∀ r, S r = true → P.gammas r = P'.gammas r) (back : Bool) (x y : ℕ → ℂ) (hxy : ∀ r, S r = true → x r = y r) :
    ∀ r, S r = true → M.apply P back x r = M'.apply P' back y r := by
  have hel : ∀ b, ∀ a ∈ M.nodes, S a.top = true → M.elements P b a.id = M'.elements P' b a.id := by
    intro b a ha hS
    obtain ⟨e1, e2, e3, e4⟩ := he a ha hS
    simp only [Mesh.elements, e1, e2, e3, e4, hstyle]
  have main : ∀ b, ∀ u w : ℕ → ℂ, (∀ r, S r = true → u r = w r) → ∀ r, S r = true →
      seqApply (M.elements P b) (visitOrder M.nodes b) u r = seqApply (M'.elements P' b) (visitOrder M'.nodes b) w r := by
    intro b u w huw r hr
    rw [seqApply_local S (M.elements P b) (M'.elements P' b) _ (fun a ha => hs a (mem_visitOrder.1 ha))
        (fun a ha => hel b a (mem_visitOrder.1 ha)) u w huw r hr,
      seqApply_local S (M'.elements P' b) (M'.elements P' b) _ (fun a ha => hs' a (mem_visitOrder.1 ha))
        (fun _ _ _ => rfl) w w (fun _ _ => rfl) r hr, visitOrder_filter _ _ _ hn b]
  have hgam : ∀ u w : ℕ → ℂ, (∀ r, S r = true → u r = w r) → ∀ r, S r = true →
      gammaApply P.gammas u r = gammaApply P'.gammas w r := by
    intro u w huw r hr
    simp only [gammaApply, hg r hr, huw r hr]
  rw [Mesh.apply_eq_seq h, Mesh.apply_eq_seq h']
  cases back
  · simp only [Bool.false_eq_true, if_false]
    exact hgam _ _ (main false x y hxy)
  · simp only [if_true]
    exact main true _ _ (hgam x y hxy)

/-- C183, block structure: if every node lies inside `S` or outside it, the matrix has no entry between a rail in
`S` and one outside it, in both directions. -/
theorem C183_blocks {n : ℕ} (M : Mesh) (h : M.WellFormed n) (P : Params) (S : ℕ → Bool) (hs : Separates S M.nodes)
    (back : Bool) (i j : Fin n) (hij : S i.val ≠ S j.val) : M.matrix n P back i j = 0 := by
  have hzero : ∀ T : ℕ → Bool, Separates T M.nodes → T i.val = true → T j.val = false → M.matrix n P back i j = 0 := by
    intro T hT hi hj
    have e := C183_no_crosstalk M M h h P P T hT hT rfl rfl (fun _ _ _ => ⟨rfl, rfl, rfl, rfl⟩) (fun _ _ => rfl) back
      (fun r => if r = j.val then 1 else 0) (fun _ => 0)
      (by intro r hr; rw [if_neg]; rintro rfl; rw [hj] at hr; simp at hr) i.val hi
    show M.apply P back (fun r => if r = j.val then 1 else 0) i.val = 0
    rw [e]
    have := congrFun (Mesh.restrict_apply h P back (fun _ => 0)) i
    have z : restrict n (fun _ => (0 : ℂ)) = 0 := rfl
    rw [z, Matrix.mulVec_zero] at this
    exact this
  cases hi : S i.val
  · have hj : S j.val = true := by rw [hi] at hij; simpa using hij.symm
    exact hzero (fun r => !S r) (fun a ha => by show (!S a.top) = !S a.bottom; rw [hs a ha]) (by simp [hi]) (by simp [hj])
  · have hj : S j.val = false := by rw [hi] at hij; simpa using hij.symm
    exact hzero S hs hi hj

/-- Two meshes on four rails with the same first node and different second ones, separated after rail 1. -/
example : Separates (fun r => r < 2) (idealMesh [⟨0, 0, 1, 4, 1, 1, 0⟩, ⟨1, 2, 3, 4, 1, 1, 0⟩] .top).nodes ∧
    Separates (fun r => r < 2) (idealMesh [⟨0, 0, 1, 4, 1, 1, 0⟩, ⟨1, 3, 2, 4, 1, 1, 5⟩] .top).nodes ∧
    (idealMesh [⟨0, 0, 1, 4, 1, 1, 0⟩, ⟨1, 2, 3, 4, 1, 1, 0⟩] .top).WellFormed 4 ∧
    (idealMesh [⟨0, 0, 1, 4, 1, 1, 0⟩, ⟨1, 3, 2, 4, 1, 1, 5⟩] .top).WellFormed 4 ∧
    (idealMesh [⟨0, 0, 1, 4, 1, 1, 0⟩, ⟨1, 2, 3, 4, 1, 1, 0⟩] .top).nodes.filter (fun a => a.top < 2) =
      (idealMesh [⟨0, 0, 1, 4, 1, 1, 0⟩, ⟨1, 3, 2, 4, 1, 1, 5⟩] .top).nodes.filter (fun a => a.top < 2) := by
  refine ⟨?_, ?_, ⟨?_, ?_, ?_, ?_, ?_⟩, ⟨?_, ?_, ?_, ?_, ?_⟩, ?_⟩ <;>
    simp [idealMesh, Separates, ColumnsDisjoint, RailDisjoint]

end Simphox
