import Verif.MeshHeap

/-! # Copies, relabelling and sharing of meshes (C22, C23, C83) -/

namespace Simphox

/-! ### Heap lemmas -/

theorem MHeap.modifyNode_nodes (H : MHeap) (r : ℕ) (f : Node → Node) (s : ℕ) :
    (H.modifyNode r f).nodes[s]? =
      if s = r then H.nodes[s]?.map (fun o => { o with node := f o.node }) else H.nodes[s]? := by
  simp only [MHeap.modifyNode, List.getElem?_modify]
  by_cases h : s = r
  · simp [h]
  · simp [h, Ne.symm h]

@[simp] theorem MHeap.modifyNode_arrs (H : MHeap) (r : ℕ) (f : Node → Node) : (H.modifyNode r f).arrs = H.arrs := rfl

@[simp] theorem MHeap.modifyNode_length (H : MHeap) (r : ℕ) (f : Node → Node) :
    (H.modifyNode r f).nodes.length = H.nodes.length := by simp [MHeap.modifyNode]

theorem MHeap.modifyNodes_frame (refs : List ℕ) (f : Node → Node) : ∀ (H : MHeap),
    (H.modifyNodes refs f).arrs = H.arrs ∧ (H.modifyNodes refs f).nodes.length = H.nodes.length ∧
    ∀ s, s ∉ refs → (H.modifyNodes refs f).nodes[s]? = H.nodes[s]? := by
  induction refs with
  | nil => intro H; exact ⟨rfl, rfl, fun _ _ => rfl⟩
  | cons r rs ih =>
    intro H
    obtain ⟨h1, h2, h3⟩ := ih (H.modifyNode r f)
    refine ⟨h1, by rw [← H.modifyNode_length r f]; exact h2, ?_⟩
    intro s hs
    rw [List.mem_cons, not_or] at hs
    have := h3 s hs.2
    rw [H.modifyNode_nodes, if_neg hs.1] at this
    exact this

theorem MHeap.modifyNodes_mem (refs : List ℕ) (f : Node → Node) : ∀ (H : MHeap), refs.Nodup →
    ∀ s ∈ refs, (H.modifyNodes refs f).nodes[s]? = H.nodes[s]?.map (fun o => { o with node := f o.node }) := by
  induction refs with
  | nil => intro H _ s hs; simp at hs
  | cons r rs ih =>
    intro H hnd s hs
    rw [List.nodup_cons] at hnd
    rcases List.mem_cons.1 hs with rfl | hs'
    · have := (MHeap.modifyNodes_frame rs f (H.modifyNode s f)).2.2 s hnd.1
      rw [H.modifyNode_nodes, if_pos rfl] at this
      exact this
    · have := ih (H.modifyNode r f) hnd.2 s hs'
      rw [H.modifyNode_nodes, if_neg (by rintro rfl; exact hnd.1 hs')] at this
      exact this

theorem MHeap.renumber_frame (l : List (ℕ × ℕ)) : ∀ (H : MHeap),
    let H' := l.foldl (fun H p => H.modifyNode p.1 fun a => { a with id := p.2 }) H
    H'.arrs = H.arrs ∧ H'.nodes.length = H.nodes.length ∧
    (∀ s, s ∉ l.map Prod.fst → H'.nodes[s]? = H.nodes[s]?) ∧
    ((l.map Prod.fst).Nodup → ∀ p ∈ l, H'.nodes[p.1]? =
      H.nodes[p.1]?.map fun o => { o with node := { o.node with id := p.2 } }) := by
  induction l with
  | nil => intro H; exact ⟨rfl, rfl, fun _ _ => rfl, fun _ p hp => by simp at hp⟩
  | cons q rs ih =>
    intro H
    obtain ⟨h1, h2, h3, h4⟩ := ih (H.modifyNode q.1 fun a => { a with id := q.2 })
    refine ⟨h1, by rw [← H.modifyNode_length q.1 fun a => { a with id := q.2 }]; exact h2, ?_, ?_⟩
    · intro s hs
      rw [List.map_cons, List.mem_cons, not_or] at hs
      have := h3 s hs.2
      rw [H.modifyNode_nodes, if_neg hs.1] at this
      exact this
    · intro hnd p hp
      rw [List.map_cons, List.nodup_cons] at hnd
      rcases List.mem_cons.1 hp with rfl | hp
      · have := h3 p.1 hnd.1
        rw [H.modifyNode_nodes, if_pos rfl] at this
        exact this
      · have := h4 hnd.2 p hp
        rw [H.modifyNode_nodes, if_neg (by intro e; exact hnd.1 (e ▸ List.mem_map_of_mem hp))] at this
        exact this

theorem MHeap.write_arr (H : MHeap) (a i : ℕ) (x : ℝ) (b : ℕ) :
    (H.write a i x).arr b = if b = a then (H.arr b).set i x else H.arr b := by
  simp only [MHeap.arr, MHeap.write, List.getD_eq_getElem?_getD, List.getElem?_modify]
  by_cases h : b = a
  · subst h
    cases H.arrs[b]? <;> simp
  · simp [h, Ne.symm h]

theorem MHeap.writes_arr (ws : List (ℕ × ℕ × ℝ)) : ∀ (H : MHeap) (b : ℕ), (∀ w ∈ ws, w.1 ≠ b) →
    (H.writes ws).arr b = H.arr b := by
  induction ws with
  | nil => intro H b _; rfl
  | cons w ws ih =>
    intro H b h
    have h1 : (H.writes (w :: ws)).arr b = ((H.write w.1 w.2.1 w.2.2).writes ws).arr b := rfl
    rw [h1, ih _ b (fun v hv => h v (by simp [hv])), H.write_arr, if_neg (Ne.symm (h w (by simp)))]

theorem MHeap.writes_nodes (ws : List (ℕ × ℕ × ℝ)) : ∀ (H : MHeap), (H.writes ws).nodes = H.nodes := by
  induction ws with
  | nil => intro H; rfl
  | cons w ws ih => intro H; exact ih _

theorem MHeap.node_congr {H H' : MHeap} {r : ℕ} (h : H'.nodes[r]? = H.nodes[r]?) : H'.node r = H.node r := by
  simp only [MHeap.node, List.getD_eq_getElem?_getD, h]

/-! ### C22 -/

/-- C22 (`mesh.params` returns copies): the returned arrays hold the phases of the mesh; whatever is
written into them later, the phases and nodes of the mesh stay; and whatever is written elsewhere
(e.g. into the arrays of the mesh), the returned copies stay. -/
theorem C22_params_copies (H : MHeap) (m : MeshObj) (hv : H.Valid m) :
    let a := (H.params m).1
    let H' := (H.params m).2
    (H'.arr a.1, H'.arr a.2.1, H'.arr a.2.2) = H.values m ∧
    (∀ ws : List (ℕ × ℕ × ℝ), (∀ w ∈ ws, w.1 = a.1 ∨ w.1 = a.2.1 ∨ w.1 = a.2.2) →
      (H'.writes ws).values m = H.values m ∧ (H'.writes ws).nodesOf m = H.nodesOf m) ∧
    ∀ ws : List (ℕ × ℕ × ℝ), (∀ w ∈ ws, w.1 ≠ a.1 ∧ w.1 ≠ a.2.1 ∧ w.1 ≠ a.2.2) →
      ((H'.writes ws).arr a.1, (H'.writes ws).arr a.2.1, (H'.writes ws).arr a.2.2) = H.values m := by
  intro a H'
  have hold : ∀ b, b < H.arrs.length → H'.arr b = H.arr b := by
    intro b hb
    simp [H', MHeap.params, MHeap.arr, List.getElem?_append_left hb]
  have hnew : (H'.arr a.1, H'.arr a.2.1, H'.arr a.2.2) = H.values m := by
    simp [H', a, MHeap.params, MHeap.values, MHeap.arr]
  refine ⟨hnew, ?_, ?_⟩
  · intro ws hw
    have : ∀ b, b < H.arrs.length → (H'.writes ws).arr b = H.arr b := by
      intro b hb
      rw [MHeap.writes_arr, hold b hb]
      intro w hwm
      have := hw w hwm
      simp only [a, MHeap.params] at this
      omega
    refine ⟨?_, ?_⟩
    · simp only [MHeap.values, this _ hv.thetas, this _ hv.phis, this _ hv.gammas]
    · unfold MHeap.nodesOf
      apply List.map_congr_left
      intro r _
      apply MHeap.node_congr
      rw [MHeap.writes_nodes]
      rfl
  · intro ws hw
    rw [MHeap.writes_arr ws H' a.1 (fun w h => (hw w h).1), MHeap.writes_arr ws H' a.2.1 (fun w h => (hw w h).2.1),
      MHeap.writes_arr ws H' a.2.2 (fun w h => (hw w h).2.2)]
    exact hnew

/-- Everything that can be observed of a mesh. -/
noncomputable def MHeap.observe (H : MHeap) (m : MeshObj) : MeshObj × List NodeObj × List ℝ × List ℝ × List ℝ :=
  (m, H.nodesOf m, H.values m)

/-- Two meshes that share no node object and no parameter array. -/
structure Apart (m m' : MeshObj) : Prop where
  refs : ∀ r ∈ m.refs, r ∉ m'.refs
  arrs : ∀ a ∈ [m.thetas, m.phis, m.gammas], a ∉ [m'.thetas, m'.phis, m'.gammas]

theorem run_frame (H : MHeap) (m m' : MeshObj) (h : Apart m m') (op : MOp) :
    (H.run m' op).2.observe m = H.observe m ∧ Apart m (H.run m' op).1 := by
  have hnode : ∀ f, (H.modifyNodes m'.refs f).observe m = H.observe m := by
    intro f
    obtain ⟨h1, h2, h3⟩ := MHeap.modifyNodes_frame m'.refs f H
    simp only [MHeap.observe, MHeap.values, MHeap.arr, h1, MHeap.nodesOf]
    congr 2
    apply List.map_congr_left
    intro r hr
    exact MHeap.node_congr (h3 r (h.refs r hr))
  have harr : ∀ a i x, a ∈ [m'.thetas, m'.phis, m'.gammas] → (H.write a i x).observe m = H.observe m := by
    intro a i x ha
    have : ∀ b ∈ [m.thetas, m.phis, m.gammas], (H.write a i x).arr b = H.arr b := by
      intro b hb
      rw [H.write_arr, if_neg]
      rintro rfl
      exact h.arrs _ hb ha
    simp only [MHeap.observe, MHeap.values, this m.thetas (by simp), this m.phis (by simp), this m.gammas (by simp)]
    rfl
  cases op
  · exact ⟨hnode _, h⟩
  · exact ⟨hnode _, h⟩
  · exact ⟨hnode _, ⟨h.refs, h.arrs⟩⟩
  · exact ⟨harr _ _ _ (by simp), h⟩
  · exact ⟨harr _ _ _ (by simp), h⟩
  · exact ⟨harr _ _ _ (by simp), h⟩

theorem runs_frame (m : MeshObj) : ∀ (ops : List MOp) (H : MHeap) (m' : MeshObj), Apart m m' →
    (H.runs m' ops).2.observe m = H.observe m
  | [], _, _, _ => rfl
  | op :: ops, H, m', h => by
    obtain ⟨h1, h2⟩ := run_frame H m m' h op
    rw [MHeap.runs, runs_frame m ops _ _ h2, h1]

theorem sum_zero_nodup {l : List ℕ} (h : l.sum = 0) (hn : l.Nodup) : l = List.range l.length := by
  match l, h, hn with
  | [], _, _ => rfl
  | [a], h, _ => simp at h; subst h; rfl
  | a :: b :: l, h, hn => simp at h hn; omega

/-- The constructor leaves a mesh with distinct ids as it is. -/
theorem construct_nodes (H : MHeap) (refs : List ℕ) (hr : ∀ r ∈ refs, r < H.nodes.length) (hrn : refs.Nodup)
    (hid : (refs.map fun r => (H.node r).node.id).Nodup) (style : PhaseStyle) (th ph ga : List ℝ) :
    (H.construct refs style th ph ga).2.nodes = H.nodes ∧
    (H.construct refs style th ph ga).2.arrs = H.arrs ++ [th, ph, ga] := by
  unfold MHeap.construct
  split_ifs with hs
  · have hid' := sum_zero_nodup hs hid
    obtain ⟨h1, h2, h3, h4⟩ := MHeap.renumber_frame refs.zipIdx H
    have hfst : refs.zipIdx.map Prod.fst = refs := List.zipIdx_map_fst _ _
    refine ⟨?_, ?_⟩
    · apply List.ext_getElem?
      intro s
      change (H.renumber refs).nodes[s]? = _
      by_cases hmem : s ∈ refs
      · obtain ⟨i, hi, rfl⟩ := List.getElem_of_mem hmem
        have hp : (refs[i], i) ∈ refs.zipIdx := by
          rw [List.mem_zipIdx_iff_getElem?]; simp [hi]
        have := h4 (by rw [hfst]; exact hrn) _ hp
        rw [MHeap.renumber, this]
        have hlt := hr _ (List.getElem_mem hi)
        have hidi : (H.node refs[i]).node.id = i := by
          have e := congrArg (fun l => l[i]?) hid'
          simp only [List.getElem?_map, List.getElem?_eq_getElem hi, Option.map_some, List.length_map] at e
          rw [List.getElem?_range hi] at e
          exact Option.some.inj e
        rw [List.getElem?_eq_getElem hlt, Option.map_some]
        have hn : H.node refs[i] = H.nodes[refs[i]] := by
          simp [MHeap.node, List.getD_eq_getElem?_getD, List.getElem?_eq_getElem hlt]
        rw [hn] at hidi
        congr 1
        generalize H.nodes[refs[i]] = o at hidi
        obtain ⟨⟨⟩, _, _⟩ := o
        simp only at hidi
        simp [hidi]
      · exact h3 s (by rw [hfst]; exact hmem)
    · have : (H.renumber refs).arrs = H.arrs := h1
      simp only [this]
  · exact ⟨rfl, rfl⟩

/-- C22 (`add_error_mean`, `add_error_variance` return an independent mesh): the new mesh has the same
phases, style and nodes (other than errors and losses); the original is unchanged; and the two share
nothing: no sequence of relabellings and phase writes on one is visible in the other. Hypotheses: the
mesh has distinct node objects with distinct ids, and its phase arrays exist. -/
theorem C22_add_error_independent (H : MHeap) (m : MeshObj) (hv : H.Valid m) (_hrn : m.refs.Nodup)
    (hid : (m.refs.map fun r => (H.node r).node.id).Nodup) (errs losses : List (ℝ × ℝ)) (th ph ga : List ℝ) :
    let m' := (H.addError m errs losses th ph ga).1
    let H' := (H.addError m errs losses th ph ga).2
    H'.observe m = H.observe m ∧
    H'.values m' = H.values m ∧ m'.style = m.style ∧
    (H'.nodesOf m').map NodeObj.node = (H.nodesOf m).map NodeObj.node ∧
    (errs.length = m.refs.length → (H'.nodesOf m').map NodeObj.err = errs ∧ m'.bsErrors = errs) ∧
    (losses.length = m.refs.length → (H'.nodesOf m').map NodeObj.loss = losses ∧ m'.losses = losses) ∧
    (∀ ops, (H'.runs m' ops).2.observe m = H.observe m) ∧
    ∀ ops, (H'.runs m ops).2.observe m' = H'.observe m' := by
  intro m' H'
  set new := m.refs.zipIdx.map fun p =>
    ({ H.node p.1 with
      err := errs.getD p.2 (H.node p.1).err
      loss := losses.getD p.2 (H.node p.1).loss } : NodeObj) with hnew
  set H1 : MHeap := { H with nodes := H.nodes ++ new } with hH1
  set refs' := List.range' H.nodes.length m.refs.length with hrefs'
  have hnl : new.length = m.refs.length := by simp [hnew]
  have hget : ∀ i (hi : i < m.refs.length), H1.node (H.nodes.length + i) =
      { H.node m.refs[i] with
        err := errs.getD i (H.node m.refs[i]).err
        loss := losses.getD i (H.node m.refs[i]).loss } := by
    intro i hi
    simp [hH1, MHeap.node, List.getD_eq_getElem?_getD, List.getElem?_append_right, hnew, hi]
  have hnodes1 : refs'.map H1.node = new := by
    apply List.ext_getElem
    · simp [hrefs', hnl]
    · intro i hi _
      have hi' : i < m.refs.length := by simpa [hrefs'] using hi
      rw [List.getElem_map]
      have : refs'[i]'(by simpa [hrefs'] using hi') = H.nodes.length + i := by simp [hrefs']
      rw [this, hget i hi']
      simp [hnew]
  have hids1 : (refs'.map fun r => (H1.node r).node.id) = m.refs.map fun r => (H.node r).node.id := by
    have : (refs'.map fun r => (H1.node r).node.id) = (refs'.map H1.node).map fun o => o.node.id := by
      rw [List.map_map]; rfl
    rw [this, hnodes1, hnew, List.map_map]
    have : ((fun o : NodeObj => o.node.id) ∘ fun p : ℕ × ℕ =>
      ({ H.node p.1 with
        err := errs.getD p.2 (H.node p.1).err
        loss := losses.getD p.2 (H.node p.1).loss } : NodeObj)) = (fun r => (H.node r).node.id) ∘ Prod.fst := rfl
    rw [this, ← List.map_map, List.zipIdx_map_fst]
  obtain ⟨hc1, hc2⟩ := construct_nodes H1 refs' (by
    intro r hr; rw [hrefs', List.mem_range'_1] at hr; simp [hH1, hnl]; omega)
    (List.nodup_range' ) (by rw [hids1]; exact hid) m.style th ph ga
  have harr' : H'.arrs = H.arrs ++ [th, ph, ga] ++ [H.arr m.thetas, H.arr m.phis, H.arr m.gammas] := by
    have e : H'.arrs = (H1.construct refs' m.style th ph ga).2.arrs ++
      [(H1.construct refs' m.style th ph ga).2.arr m.thetas, (H1.construct refs' m.style th ph ga).2.arr m.phis,
        (H1.construct refs' m.style th ph ga).2.arr m.gammas] := rfl
    have e2 : ∀ b, b < H.arrs.length → (H1.construct refs' m.style th ph ga).2.arr b = H.arr b := by
      intro b hb
      simp only [MHeap.arr, hc2, List.getD_eq_getElem?_getD]
      rw [List.getElem?_append_left hb]
    rw [e, hc2, e2 _ hv.thetas, e2 _ hv.phis, e2 _ hv.gammas]
  have hnode' : H'.nodes = H.nodes ++ new := hc1
  have hold : ∀ b, b < H.arrs.length → H'.arr b = H.arr b := by
    intro b hb
    simp only [MHeap.arr, harr', List.getD_eq_getElem?_getD, List.append_assoc]
    rw [List.getElem?_append_left hb]
  have hk : (H1.construct refs' m.style th ph ga).2.arrs.length = H.arrs.length + 3 := by rw [hc2]; simp [hH1]
  have ht : m'.thetas = H.arrs.length + 3 := hk
  have hp : m'.phis = H.arrs.length + 3 + 1 := by rw [← hk]; rfl
  have hg : m'.gammas = H.arrs.length + 3 + 2 := by rw [← hk]; rfl
  have hr' : m'.refs = refs' := rfl
  have hobs : H'.observe m = H.observe m := by
    simp only [MHeap.observe, MHeap.values, hold _ hv.thetas, hold _ hv.phis, hold _ hv.gammas, MHeap.nodesOf]
    congr 2
    apply List.map_congr_left
    intro r hr
    apply MHeap.node_congr
    rw [hnode', List.getElem?_append_left (hv.refs r hr)]
  have hnof : H'.nodesOf m' = new := by
    rw [← hnodes1, MHeap.nodesOf, hr']
    apply List.map_congr_left
    intro r _
    apply MHeap.node_congr
    rw [hnode']
  have hapart : Apart m m' := by
    constructor
    · intro r hr hr2
      have := hv.refs r hr
      rw [hr', hrefs', List.mem_range'_1] at hr2
      omega
    · have := hv.thetas; have := hv.phis; have := hv.gammas
      intro a ha hb
      simp only [List.mem_cons, List.not_mem_nil, or_false, ht, hp, hg] at ha hb
      omega
  have hzip : ∀ l : List (ℝ × ℝ), ∀ d : ℕ → ℝ × ℝ, l.length = m.refs.length →
      m.refs.zipIdx.map (fun p => l.getD p.2 (d p.1)) = l := by
    intro l d hl
    apply List.ext_getElem
    · simp [hl]
    · intro i hi1 hi2
      simp [List.getD_eq_getElem?_getD, hi2]
  have hbs : m'.bsErrors = (refs'.map H1.node).map NodeObj.err := by rw [List.map_map]; rfl
  have hls : m'.losses = (refs'.map H1.node).map NodeObj.loss := by rw [List.map_map]; rfl
  refine ⟨hobs, ?_, rfl, ?_, ?_, ?_, ?_, ?_⟩
  · have e : ∀ l : List (List ℝ), ∀ a b c x y z : List ℝ, ∀ i < 3, (l ++ [a, b, c] ++ [x, y, z]).getD (l.length + 3 + i) [] =
        [x, y, z].getD i [] := by
      intro l a b c x y z i _
      rw [List.getD_eq_getElem?_getD, List.getElem?_append_right (by simp)]
      simp [List.getD_eq_getElem?_getD, show l.length + 3 + i - (l.length + 3) = i by omega]
    have e0 := e H.arrs th ph ga (H.arr m.thetas) (H.arr m.phis) (H.arr m.gammas) 0 (by norm_num)
    have e1 := e H.arrs th ph ga (H.arr m.thetas) (H.arr m.phis) (H.arr m.gammas) 1 (by norm_num)
    have e2 := e H.arrs th ph ga (H.arr m.thetas) (H.arr m.phis) (H.arr m.gammas) 2 (by norm_num)
    unfold MHeap.values
    rw [ht, hp, hg]
    unfold MHeap.arr at e0 e1 e2 harr' ⊢
    rw [harr']
    exact Prod.ext e0 (Prod.ext e1 e2)
  · rw [hnof, hnew, List.map_map, MHeap.nodesOf, List.map_map]
    have : (NodeObj.node ∘ fun p : ℕ × ℕ =>
      ({ H.node p.1 with
        err := errs.getD p.2 (H.node p.1).err
        loss := losses.getD p.2 (H.node p.1).loss } : NodeObj)) = (NodeObj.node ∘ H.node) ∘ Prod.fst := rfl
    rw [this, ← List.map_map, List.zipIdx_map_fst]
  · intro hl
    have : new.map NodeObj.err = errs := by
      rw [hnew, List.map_map]
      exact hzip errs (fun r => (H.node r).err) hl
    exact ⟨by rw [hnof, this], by rw [hbs, hnodes1, this]⟩
  · intro hl
    have : new.map NodeObj.loss = losses := by
      rw [hnew, List.map_map]
      exact hzip losses (fun r => (H.node r).loss) hl
    exact ⟨by rw [hnof, this], by rw [hls, hnodes1, this]⟩
  · intro ops
    rw [runs_frame m ops H' m' hapart, hobs]
  · intro ops
    exact runs_frame m' ops H' m ⟨fun r hr h => hapart.refs r h hr, fun a ha h => hapart.arrs a h ha⟩

/-- The setter keeps the arrays it is given: a later write into them shows in the mesh. (So the
isolation of C22 holds for the getter only.) -/
theorem C22_setter_aliases (H : MHeap) (m : MeshObj) (p : ℕ × ℕ × ℕ) (i : ℕ) (x : ℝ) :
    (H.write p.1 i x).arr (m.setParams p).thetas = (H.arr p.1).set i x := by
  simp [MeshObj.setParams, H.write_arr]

/-- A two-node mesh on a small heap. -/
noncomputable def demoHeap : MHeap :=
  ⟨[⟨⟨0, 0, 1, 3, 1, 1, 0⟩, (0, 0), (0, 0)⟩, ⟨⟨1, 1, 2, 3, 1, 2, 1⟩, (0, 0), (0, 0)⟩],
    [[1, 2], [3, 4], [5, 6, 7]]⟩

/-- The mesh on `demoHeap`. -/
def demoMeshObj : MeshObj := ⟨[0, 1], .top, [0, 1], [0, 1], [(0, 0), (0, 0)], [(0, 0), (0, 0)], 2, 0, 1, 2⟩

/-- The hypotheses of the C22 theorems are satisfiable. -/
example : demoHeap.Valid demoMeshObj ∧ demoMeshObj.refs.Nodup ∧
    (demoMeshObj.refs.map fun r => (demoHeap.node r).node.id).Nodup := by
  refine ⟨⟨?_, ?_, ?_, ?_⟩, ?_, ?_⟩ <;> simp [demoHeap, demoMeshObj, MHeap.node]

/-! ### C23 -/

theorem nodesOf_modify (H : MHeap) (m m' : MeshObj) (hm : m'.refs = m.refs) (hv : ∀ r ∈ m.refs, r < H.nodes.length)
    (hrn : m.refs.Nodup) (f : Node → Node) :
    (H.modifyNodes m.refs f).nodesOf m' = (H.nodesOf m).map fun o => { o with node := f o.node } := by
  simp only [MHeap.nodesOf, hm, List.map_map]
  apply List.map_congr_left
  intro r hr
  have := MHeap.modifyNodes_mem m.refs f H hrn r hr
  have hlt := hv r hr
  simp only [MHeap.node, List.getD_eq_getElem?_getD, this, Function.comp]
  simp [List.getElem?_eq_getElem hlt]

/-- C23, `offset` and `offset_column`: every node of the mesh gets id (column) increased by `k`, all
its other data, every other node object, all arrays and the mesh object stay. (In particular the
cached `node_idxs`, `column_by_node` and `num_columns` keep their old values; `aggregate` builds a new
mesh and so recomputes them.) -/
theorem C23_offset (H : MHeap) (m : MeshObj) (hv : H.Valid m) (hrn : m.refs.Nodup) (k : ℕ) :
    (let r := H.run m (.offset k)
     r.1 = m ∧ r.2.nodesOf m = (H.nodesOf m).map (fun o => { o with node := { o.node with id := o.node.id + k } }) ∧
      r.2.arrs = H.arrs ∧ ∀ s, s ∉ m.refs → r.2.nodes[s]? = H.nodes[s]?) ∧
    (let r := H.run m (.offsetColumn k)
     r.1 = m ∧
      r.2.nodesOf m = (H.nodesOf m).map (fun o => { o with node := { o.node with column := o.node.column + k } }) ∧
      r.2.arrs = H.arrs ∧ ∀ s, s ∉ m.refs → r.2.nodes[s]? = H.nodes[s]?) := by
  constructor
  · obtain ⟨h1, _, h3⟩ := MHeap.modifyNodes_frame m.refs (fun a => { a with id := a.id + k }) H
    exact ⟨rfl, nodesOf_modify H m m rfl hv.refs hrn _, h1, h3⟩
  · obtain ⟨h1, _, h3⟩ := MHeap.modifyNodes_frame m.refs (fun a => { a with column := a.column + k }) H
    exact ⟨rfl, nodesOf_modify H m m rfl hv.refs hrn _, h1, h3⟩

/-- C23, `invert_columns`: with all columns below `num_columns` (true of every mesh just built), it
keeps them there, reverses the order of columns, changes nothing else, and doing it twice restores
the mesh. -/
theorem C23_invert_involution (H : MHeap) (m : MeshObj) (hv : H.Valid m) (hrn : m.refs.Nodup)
    (hc : ∀ o ∈ H.nodesOf m, o.node.column < m.numCols) (hcache : m.columnByNode = (H.nodesOf m).map (·.node.column)) :
    let r := H.run m .invertColumns
    r.2.nodesOf r.1 = (H.nodesOf m).map
      (fun o => { o with node := { o.node with column := m.numCols - 1 - o.node.column } }) ∧
    (∀ o ∈ r.2.nodesOf r.1, o.node.column < r.1.numCols) ∧
    (∀ o ∈ H.nodesOf m, ∀ o' ∈ H.nodesOf m, o.node.column < o'.node.column ↔
      m.numCols - 1 - o'.node.column < m.numCols - 1 - o.node.column) ∧
    r.1.columnByNode = (r.2.nodesOf r.1).map (·.node.column) ∧
    (r.2.run r.1 .invertColumns).2.observe (r.2.run r.1 .invertColumns).1 = H.observe m := by
  intro r
  have h1 : r.2.nodesOf r.1 = (H.nodesOf m).map
      (fun o => { o with node := { o.node with column := m.numCols - 1 - o.node.column } }) :=
    nodesOf_modify H m r.1 rfl hv.refs hrn _
  have hfr := MHeap.modifyNodes_frame m.refs (fun a => { a with column := m.numCols - 1 - a.column }) H
  have hfr2 := MHeap.modifyNodes_frame m.refs (fun a => { a with column := m.numCols - 1 - a.column }) r.2
  have h2 : (r.2.run r.1 .invertColumns).2.nodesOf (r.2.run r.1 .invertColumns).1 = H.nodesOf m := by
    have := nodesOf_modify r.2 r.1 (r.2.run r.1 .invertColumns).1 rfl
      (fun x hx => by have := hv.refs x hx; have e := hfr.2.1; change x < (H.run m .invertColumns).2.nodes.length
                      simp only [MHeap.run]; omega) hrn (fun a => { a with column := m.numCols - 1 - a.column })
    change (r.2.run r.1 .invertColumns).2.nodesOf _ = _ at this
    rw [this, h1, List.map_map]
    conv_rhs => rw [← List.map_id (H.nodesOf m)]
    apply List.map_congr_left
    intro o ho
    have := hc o ho
    obtain ⟨⟨⟩, _, _⟩ := o
    simp only [Function.comp, id] at this ⊢
    congr 2
    omega
  refine ⟨h1, ?_, ?_, ?_, ?_⟩
  · intro o ho
    rw [h1] at ho
    obtain ⟨o', ho', rfl⟩ := List.mem_map.1 ho
    have := hc o' ho'
    change m.numCols - 1 - o'.node.column < m.numCols
    omega
  · intro o ho o' ho'
    have := hc o ho; have := hc o' ho'
    omega
  · simp only [r, MHeap.run, MHeap.nodesOf, List.map_map]; rfl
  · have hcol : (r.2.run r.1 .invertColumns).1.columnByNode = m.columnByNode := by
      rw [hcache, ← h2]
      simp only [MHeap.run, MHeap.nodesOf, List.map_map]; rfl
    have hm : (r.2.run r.1 .invertColumns).1 = m := by
      have : (r.2.run r.1 .invertColumns).1 =
        { m with columnByNode := (r.2.run r.1 .invertColumns).1.columnByNode } := rfl
      rw [this, hcol]
    have harr : (r.2.run r.1 .invertColumns).2.arrs = H.arrs := hfr2.1.trans hfr.1
    simp only [MHeap.observe]
    rw [h2, hm]
    simp only [MHeap.values, MHeap.arr, harr]

/-- C23, `aggregate`: the new mesh has the node objects of the given meshes, in order. -/
theorem C23_aggregate (H : MHeap) (ms : List MeshObj) (th ph ga : List ℝ) :
    (H.aggregate ms th ph ga).1.refs = ms.flatMap MeshObj.refs ∧ (H.aggregate ms th ph ga).1.style = .top := by
  exact ⟨rfl, rfl⟩

/-! ### C83 -/

/-- C83, what holds: if the nodes of all given meshes have distinct ids, `aggregate` changes none of
them. Missing: meshes with clashing ids (see the counterexample). -/
theorem C83_aggregate_keeps_partial (H : MHeap) (ms : List MeshObj) (hv : ∀ m ∈ ms, H.Valid m)
    (hrn : (ms.flatMap MeshObj.refs).Nodup)
    (hid : ((ms.flatMap MeshObj.refs).map fun r => (H.node r).node.id).Nodup) (th ph ga : List ℝ) :
    ∀ m ∈ ms, (H.aggregate ms th ph ga).2.observe m = H.observe m := by
  intro m hm
  obtain ⟨h1, h2⟩ := construct_nodes H (ms.flatMap MeshObj.refs)
    (by intro r hr; obtain ⟨m', hm', hr'⟩ := List.mem_flatMap.1 hr; exact (hv m' hm').refs r hr')
    hrn hid .top th ph ga
  have hold : ∀ b, b < H.arrs.length → (H.aggregate ms th ph ga).2.arr b = H.arr b := by
    intro b hb
    simp only [MHeap.arr, MHeap.aggregate, h2, List.getD_eq_getElem?_getD]
    rw [List.getElem?_append_left hb]
  have hvm := hv m hm
  simp only [MHeap.observe, MHeap.values, hold _ hvm.thetas, hold _ hvm.phis, hold _ hvm.gammas, MHeap.nodesOf]
  congr 2
  apply List.map_congr_left
  intro r _
  apply MHeap.node_congr
  rw [MHeap.aggregate, h1]

/-- C83 fails in general: aggregating two one-node meshes (both with node id 0) rewrites the id of the
second mesh's node to 1, which is out of range of its own phase arrays of length 1. -/
theorem C83_aggregate_renumbers_counterexample :
    ∃ (H : MHeap) (m1 m2 : MeshObj), H.Valid m1 ∧ H.Valid m2 ∧ Apart m1 m2 ∧ H.arr m2.thetas = [2] ∧
      (H.nodesOf m2).map (·.node.id) = [0] ∧
      ((H.aggregate [m1, m2] [] [] []).2.nodesOf m2).map (·.node.id) = [1] := by
  refine ⟨⟨[⟨⟨0, 0, 1, 2, 1, 1, 0⟩, (0, 0), (0, 0)⟩, ⟨⟨0, 0, 1, 2, 1, 1, 0⟩, (0, 0), (0, 0)⟩],
      [[1], [1], [1, 1], [2], [2], [2, 2]]⟩,
    ⟨[0], .top, [0], [0], [(0, 0)], [(0, 0)], 1, 0, 1, 2⟩, ⟨[1], .top, [0], [0], [(0, 0)], [(0, 0)], 1, 3, 4, 5⟩,
    ⟨?_, ?_, ?_, ?_⟩, ⟨?_, ?_, ?_, ?_⟩, ⟨?_, ?_⟩, ?_, ?_, ?_⟩ <;>
    simp [MHeap.arr, MHeap.nodesOf, MHeap.node, MHeap.aggregate, MHeap.construct, MHeap.renumber, MHeap.modifyNode,
      List.zipIdx, List.modify_cons]

/-- Sharing: `aggregate` does not copy nodes, so relabelling the aggregate relabels its parts. -/
theorem C83_aggregate_shares_counterexample (k : ℕ) (hk : 0 < k) :
    let a := (demoHeap.aggregate [demoMeshObj] [] [] []).1
    let H := (demoHeap.aggregate [demoMeshObj] [] [] []).2
    (H.nodesOf demoMeshObj).map (·.node.id) = [0, 1] ∧
    ((H.run a (.offset k)).2.nodesOf demoMeshObj).map (·.node.id) = [k, 1 + k] ∧ [k, 1 + k] ≠ [0, 1] := by
  refine ⟨?_, ?_, ?_⟩
  · simp [MHeap.aggregate, MHeap.construct, demoHeap, demoMeshObj, MHeap.node, MHeap.nodesOf]
  · simp [MHeap.aggregate, MHeap.construct, demoHeap, demoMeshObj, MHeap.node, MHeap.nodesOf, MHeap.run,
      MHeap.modifyNodes, MHeap.modifyNode, List.modify_cons]
  · simp; omega

end Simphox
