import Verif.Props.CheritonTarjan
import Verif.Props.Paths
import Verif.Lemmas.WeightOrder
import Verif.Lemmas.FloatWeights

/-!
# Spanning trees depend on the order of the weights only; floating point weights (C174)

`prim`, `kruskal` and `cheriton_tarjan` only compare the weights of edges; sums are made for the returned total.
-/

namespace Rosemary.Props

open Rosemary.Graph Rosemary.SpanningTrees Rosemary.Spec Rosemary.Paths Rosemary.WeightOrder Rosemary.Floats

section order

variable {V W W' : Type}

/-- The call with another weight for every edge. -/
def Op.reweight (f : W → W') : Op V W → Op V W'
  | .addVertex u => .addVertex u
  | .addVertices us => .addVertices us
  | .deleteVertex u => .deleteVertex u
  | .deleteVertices us => .deleteVertices us
  | .addEdge u v w => .addEdge u v (f w)
  | .addEdges es => .addEdges (es.map fun e => (e.1, e.2.1, f e.2.2))
  | .deleteEdge u v => .deleteEdge u v

section graphs

variable [DecidableEq V]

theorem rg_run {ρ : W → W' → Prop} {f : W → W'} (hf : ∀ w, ρ w (f w)) {g : Graph V W} {g' : Graph V W'} (h : RG ρ g g')
    (op : Op V W) : RG ρ (op.run g) ((Op.reweight f op).run g') := by
  cases op with
  | addVertex u => exact rg_addVertex h u
  | addVertices us =>
    change RG ρ (Graph.addVertices g us) (Graph.addVertices g' us)
    induction us generalizing g g' with
    | nil => exact h
    | cons u us ih => exact ih (rg_addVertex h u)
  | deleteVertex u => exact rg_deleteVertex h u
  | deleteVertices us =>
    change RG ρ (Graph.deleteVertices g us) (Graph.deleteVertices g' us)
    induction us generalizing g g' with
    | nil => exact h
    | cons u us ih => exact ih (rg_deleteVertex h u)
  | addEdge u v w => exact rg_addHalf (rg_addHalf h u v (hf w)) v u (hf w)
  | addEdges es =>
    change RG ρ (Graph.addEdges g es) (Graph.addEdges g' (es.map fun e => (e.1, e.2.1, f e.2.2)))
    induction es generalizing g g' with
    | nil => exact h
    | cons e es ih => exact ih (rg_addHalf (rg_addHalf h e.1 e.2.1 (hf _)) e.2.1 e.1 (hf _))
  | deleteEdge u v => exact rg_deleteHalf (rg_deleteHalf h v u) u v

theorem rg_history {ρ : W → W' → Prop} {f : W → W'} (hf : ∀ w, ρ w (f w)) (ops : List (Op V W)) :
    RG ρ (history ops) (history (ops.map (Op.reweight f))) := by
  suffices h : ∀ (g : Graph V W) (g' : Graph V W'), RG ρ g g' →
      RG ρ (ops.foldl Op.run g) ((ops.map (Op.reweight f)).foldl Op.run g') from h [] [] .nil
  induction ops with
  | nil => exact fun g g' h => h
  | cons op ops ih => exact fun g g' h => ih _ _ (rg_run hf h op)

theorem rg_reweight (f : W → W') (ops : List (Op V W)) :
    RG (fun a b => b = f a) (history ops) (history (ops.map (Op.reweight f))) :=
  rg_history (ρ := fun a b => b = f a) (fun _ => rfl) ops

theorem rg_verts {ρ : W → W' → Prop} {g : Graph V W} {g' : Graph V W'} (h : RG ρ g g') : (toAbs g').verts = (toAbs g).verts := by
  ext v
  change v ∈ Dict.keys g' ↔ v ∈ Dict.keys g
  rw [rel_keys h]

theorem reweight_weight (f : W → W') (ops : List (Op V W)) (u v : V) :
    (toAbs (history (ops.map (Op.reweight f)))).weight u v = ((toAbs (history ops)).weight u v).map f := by
  have h := rg_reweight f ops
  have hu := rel_get h u
  change (Dict.get? _ u).bind _ = Option.map f ((Dict.get? _ u).bind _)
  generalize Dict.get? (history ops) u = N at hu ⊢
  generalize Dict.get? (history (ops.map (Op.reweight f))) u = N' at hu ⊢
  cases hu with
  | none => rfl
  | @some N N' hu =>
    have hv := rel_get (R := fun a b => b = f a) hu v
    change Dict.get? N' v = Option.map f (Dict.get? N v)
    generalize Dict.get? N v = x at hv ⊢
    generalize Dict.get? N' v = x' at hv ⊢
    cases hv with
    | none => rfl
    | some hv => rw [hv]; rfl

end graphs

variable [LinearOrder V] [LinearOrder W] [LinearOrder W']

theorem ordered_of_strictMono {f : W → W'} (hf : StrictMono f) : Ordered (fun a b => b = f a) := by
  rintro a _ b _ rfl rfl
  exact hf.lt_iff_lt.symm

variable [Add W] [Zero W] [Add W'] [Zero W']

omit [LinearOrder V] [LinearOrder W] [LinearOrder W'] [Add W] [Zero W] [Add W'] [Zero W'] in
theorem rr_snd {α : Type} {I : ℕ → W → W' → Prop} {len : α → ℕ} {r : Option (Except PyErr (W × α))} {r' : Option (Except PyErr (W' × α))}
    (h : Option.Rel (RR I len) r r') : r'.map (Except.map Prod.snd) = r.map (Except.map Prod.snd) := by
  cases h with
  | none => rfl
  | some h => cases h <;> rfl

/-- C174: `prim` finds the same tree, or raises the same exception, when all weights are replaced by others in the same
order. -/
theorem C174_prim_order {f : W → W'} (hf : StrictMono f) (ops : List (Op V W)) (root : Option V) :
    (prim (history (ops.map (Op.reweight f))) root).map (Except.map Prod.snd) = (prim (history ops) root).map (Except.map Prod.snd) :=
  rr_snd (rel_prim (I := fun _ _ _ => True) (fun _ _ _ _ _ _ _ => trivial) trivial (ordered_of_strictMono hf)
    (rg_reweight _ ops) root)

/-- C174, with `edge_list=False`: the same links, in the same order. -/
theorem C174_prim_links_order {f : W → W'} (hf : StrictMono f) (ops : List (Op V W)) (root : Option V) :
    (primLinks (history (ops.map (Op.reweight f))) root).map (Except.map Prod.snd) =
      (primLinks (history ops) root).map (Except.map Prod.snd) :=
  rr_snd (rel_primLinks (I := fun _ _ _ => True) (fun _ _ _ _ _ _ _ => trivial) trivial (ordered_of_strictMono hf)
    (rg_reweight _ ops) root)

/-- C174, `kruskal`. -/
theorem C174_kruskal_order {f : W → W'} (hf : StrictMono f) (ops : List (Op V W)) :
    (kruskal (history (ops.map (Op.reweight f)))).map (Except.map Prod.snd) = (kruskal (history ops)).map (Except.map Prod.snd) :=
  rr_snd (rel_kruskal (I := fun _ _ _ => True) (fun _ _ _ _ _ _ _ => trivial) trivial (ordered_of_strictMono hf)
    (rg_reweight _ ops))

/-- C174, `cheriton_tarjan`, for the same random choices. -/
theorem C174_cheriton_tarjan_order {f : W → W'} (hf : StrictMono f) (ops : List (Op V W)) (ch : ℕ → List V → V) :
    (cheritonTarjan ch (history (ops.map (Op.reweight f)))).map (Except.map Prod.snd) =
      (cheritonTarjan ch (history ops)).map (Except.map Prod.snd) :=
  rr_snd (rel_cheritonTarjan (I := fun _ _ _ => True) (fun _ _ _ _ _ _ _ => trivial) trivial (ordered_of_strictMono hf)
    (rg_reweight _ ops) ch)

end order

/-! ## Floats -/

section floats

variable {V : Type} [LinearOrder V] {M : Mode}

theorem double_strictMono : StrictMono (Double.val : Double M → ℝ) := fun _ _ h => h

/-- The weights as real numbers. -/
noncomputable abbrev exactOps (ops : List (Op V (Double M))) : List (Op V ℝ) := ops.map (Op.reweight Double.val)

theorem exactOps_weight (ops : List (Op V (Double M))) :
    (toAbs (history (exactOps ops))).weight = Double.exactWeight (toAbs (history ops)).weight := by
  funext u v
  exact reweight_weight Double.val ops u v

theorem exactOps_verts (ops : List (Op V (Double M))) : (toAbs (history (exactOps ops))).verts = (toAbs (history ops)).verts :=
  rg_verts (rg_history (ρ := fun a b => b = Double.val a) (fun _ => rfl) ops)

theorem exactOps_edge (ops : List (Op V (Double M))) : EdgeOf (exactOps ops) = EdgeOf ops := by
  funext a b
  rw [EdgeOf, EdgeOf, exactOps_weight]
  refine propext ⟨?_, ?_⟩
  · rintro ⟨w, hw⟩
    rw [Double.exactWeight, Option.map_eq_some_iff] at hw
    obtain ⟨x, hx, -⟩ := hw
    exact ⟨x, hx⟩
  · rintro ⟨w, hw⟩
    exact ⟨w.val, by rw [Double.exactWeight, hw]; rfl⟩

/-- All weights of the graph have the property. -/
theorem rg_restrict {ops : List (Op V (Double M))} {p : Double M → Prop}
    (hp : ∀ u v x, (toAbs (history ops)).weight u v = some x → p x) :
    RG (fun a b => b = a.val ∧ p a) (history ops) (history (exactOps ops)) := by
  have hg := (history_spec ops).1
  have h := rg_history (ρ := fun a b => b = Double.val a) (fun _ => rfl) ops
  have key : ∀ e ∈ history ops, ∀ f ∈ e.2, p f.2 := by
    intro e he f hf
    have h1 := Dict.get?_of_mem hg.wf (k := e.1) (v := e.2) he
    have h2 := Dict.get?_of_mem (hg.inner _ _ h1) (k := f.1) (v := f.2) hf
    refine hp e.1 f.1 f.2 ?_
    change (Dict.get? (history ops) e.1).bind _ = _
    rw [h1]
    exact h2
  have inner : ∀ {N : Dict V (Double M)} {N' : Dict V ℝ}, RN (fun a b => b = Double.val a) N N' → (∀ f ∈ N, p f.2) →
      RN (fun a b => b = a.val ∧ p a) N N' := by
    intro N N' hN
    induction hN with
    | nil => intro _; exact .nil
    | cons h1 _ ih =>
      intro h2
      exact .cons ⟨h1.1, h1.2, h2 _ List.mem_cons_self⟩ (ih fun f hf => h2 f (List.mem_cons_of_mem _ hf))
  have outer : ∀ {g : Graph V (Double M)} {g' : Graph V ℝ}, RG (fun a b => b = Double.val a) g g' →
      (∀ e ∈ g, ∀ f ∈ e.2, p f.2) → RG (fun a b => b = a.val ∧ p a) g g' := by
    intro g g' hgg
    induction hgg with
    | nil => intro _; exact .nil
    | cons h1 _ ih =>
      intro h2
      exact .cons ⟨h1.1, inner h1.2 (h2 _ List.mem_cons_self)⟩ (ih fun f hf => h2 f (List.mem_cons_of_mem _ hf))
  exact outer h key

theorem ordered_restrict {p : Double M → Prop} : Ordered (fun (a : Double M) b => b = a.val ∧ p a) := by
  rintro a _ b _ ⟨rfl, -⟩ ⟨rfl, -⟩
  exact Iff.rfl

/-- The rounded sum `t` of `k` nonnegative floats with the exact sum `r`. -/
def SumClose (k : ℕ) (t : Double M) (r : ℝ) : Prop := Close (k - 1) r t.val ∧ (k = 0 → t.val = 0 ∧ r = 0)

theorem sumClose_zero : SumClose 0 (0 : Double M) 0 := ⟨⟨le_rfl, by simp [Double.val_zero]⟩, fun _ => ⟨rfl, rfl⟩⟩

theorem sumClose_step (k : ℕ) (t : Double M) (r : ℝ) (w : Double M) (x : ℝ) (h : SumClose k t r) (hx : x = w.val ∧ 0 ≤ w) :
    SumClose (k + 1) (t + w) (r + x) := by
  obtain ⟨rfl, hw⟩ := hx
  refine ⟨?_, fun h => by omega⟩
  rw [Double.val_add]
  rcases Nat.eq_zero_or_pos k with rfl | hk
  · obtain ⟨h1, h2⟩ := h.2 rfl
    rw [h1, h2, zero_add w.val, M.exact w.val w.2]
    refine ⟨hw, ?_, ?_⟩ <;> simp
  · have := close_step (M := M) h.1 (hw : 0 ≤ w.val)
    rw [show k + 1 - 1 = k - 1 + 1 by omega]
    exact this

theorem intSum_zero : IntClose 0 (0 : Double M).val :=
  ⟨le_rfl, ⟨0, by simp⟩, fun _ => Double.val_zero, fun h => absurd h (by norm_num)⟩

theorem intSum_step (k : ℕ) (t : Double M) (r : ℝ) (w : Double M) (x : ℝ) (h : IntClose r t.val)
    (hx : x = w.val ∧ 0 ≤ w ∧ ∃ n : ℤ, w.val = n) : IntClose (r + x) (t + w).val := by
  obtain ⟨rfl, hw, hn⟩ := hx
  exact intClose_step h hw hn

/-- What holds of the total `t` returned with the edges of a tree with `n` vertices: `r` is the exact weight. -/
structure TotalOf (ops : List (Op V (Double M))) (n : ℕ) (t : Double M) (r : ℝ) : Prop where
  lower : Nonneg ops → (1 - (2 : ℝ)⁻¹ ^ 52) ^ (n - 2) * r ≤ t.val
  upper : Nonneg ops → t.val ≤ (1 + (2 : ℝ)⁻¹ ^ 52) ^ (n - 2) * r
  integral : Nonneg ops → (∀ u v x, (toAbs (history ops)).weight u v = some x → ∃ m : ℤ, x.val = m) → r ≤ 2 ^ 53 → t.val = r

/-- The three functions have this in common. -/
theorem total_of {ops : List (Op V (Double M))} {r : Option (Except PyErr (Double M × List (V × V)))}
    {r' : Option (Except PyErr (ℝ × List (V × V)))}
    (hrel : ∀ (ρ : Double M → ℝ → Prop) (I : ℕ → Double M → ℝ → Prop),
      (∀ k t t' w w', I k t t' → ρ w w' → I (k + 1) (t + w) (t' + w')) → I 0 0 0 → Ordered ρ →
      RG ρ (history ops) (history (exactOps ops)) → Option.Rel (RR I List.length) r r')
    {total : ℝ} {edges : List (V × V)} (h : r' = some (.ok (total, edges))) :
    ∃ t, r = some (.ok (t, edges)) ∧ TotalOf ops (edges.length + 1) t total := by
  subst h
  have get : ∀ {I : ℕ → Double M → ℝ → Prop}, Option.Rel (RR I List.length) r (some (.ok (total, edges))) →
      ∃ t, r = some (.ok (t, edges)) ∧ I edges.length t total := by
    intro I h
    cases h with
    | some h =>
      cases h with
      | ok t _ _ h => exact ⟨t, rfl, h⟩
  obtain ⟨t, ht, -⟩ := get (hrel (fun a b => b = a.val) (fun _ _ _ => True) (fun _ _ _ _ _ _ _ => trivial) trivial
    (ordered_of_strictMono double_strictMono) (rg_reweight _ ops))
  have close : Nonneg ops → SumClose edges.length t total := by
    intro hN
    obtain ⟨t', ht', h⟩ := get (hrel (fun a b => b = a.val ∧ 0 ≤ a) SumClose sumClose_step sumClose_zero
      (ordered_restrict (p := fun a => 0 ≤ a)) (rg_restrict hN))
    rw [ht] at ht'
    cases ht'
    exact h
  refine ⟨t, ht, fun hN => (close hN).1.2.1, fun hN => (close hN).1.2.2, fun hN hI hr => ?_⟩
  obtain ⟨t', ht', h⟩ := get (hrel (fun a b => b = a.val ∧ 0 ≤ a ∧ ∃ n : ℤ, a.val = n) (fun _ t r => IntClose r t.val) intSum_step intSum_zero
    (ordered_restrict (p := fun a => 0 ≤ a ∧ ∃ n : ℤ, a.val = n)) (rg_restrict fun u v x hx => ⟨hN u v x hx, hI u v x hx⟩))
  rw [ht] at ht'
  cases ht'
  exact h.2.2.1 hr

theorem length_of_tree {A : V → V → Option ℝ} {C : Finset V} {edges : List (V × V)}
    (h1 : edges.Pairwise (fun a b => toLex a < toLex b)) (h2 : SpanningTree A C edges.toFinset) : edges.length + 1 = C.card := by
  rw [← h2.card, List.toFinset_card_of_nodup]
  exact h1.imp fun h e => by subst e; exact lt_irrefl _ h

/-- C174: with floats as weights, of either sign, `prim` returns the edges of a tree that is a minimum spanning tree for
the exact sums of the weights; the returned total is off by the rounding of its additions at most, and it is exact for
nonnegative integers with a total up to `2^53`. -/
theorem C174_prim_float (ops : List (Op V (Double M))) (s : V) (hs : s ∈ (toAbs (history ops)).verts) :
    ∃ total edges, prim (history ops) (some s) = some (.ok (total, edges)) ∧
      edges.Pairwise (fun a b => toLex a < toLex b) ∧
      ∃ C : Finset V, (∀ v, v ∈ C ↔ Reach (EdgeOf ops) s v) ∧
        MinSpanningTree (Double.exactWeight (toAbs (history ops)).weight) C edges.toFinset ∧
        TotalOf ops C.card total (totalWeight (Double.exactWeight (toAbs (history ops)).weight) edges.toFinset) := by
  obtain ⟨t', edges, h1, h2, h3, C, h4, h5⟩ := C70_prim (exactOps ops) s (by rw [exactOps_verts]; exact hs)
  rw [exactOps_weight] at h3 h5
  rw [exactOps_edge] at h4
  obtain ⟨t, k1, k2⟩ := total_of (r := prim (history ops) (some s)) (fun ρ I hI h0 hρ hg => rel_prim hI h0 hρ hg (some s)) h1
  rw [length_of_tree h2 h5.tree, h3] at k2
  exact ⟨t, edges, k1, h2, C, h4, h5, k2⟩

/-- C174, `kruskal` on a connected graph. -/
theorem C174_kruskal_float (ops : List (Op V (Double M))) (hne : (toAbs (history ops)).verts ≠ ∅)
    (hc : ∀ u ∈ (toAbs (history ops)).verts, ∀ v ∈ (toAbs (history ops)).verts, Reach (EdgeOf ops) u v) :
    ∃ total edges, kruskal (history ops) = some (.ok (total, edges)) ∧
      edges.Pairwise (fun a b => toLex a < toLex b) ∧
      ∃ C : Finset V, (∀ v, v ∈ C ↔ v ∈ (toAbs (history ops)).verts) ∧
        MinSpanningTree (Double.exactWeight (toAbs (history ops)).weight) C edges.toFinset ∧
        TotalOf ops C.card total (totalWeight (Double.exactWeight (toAbs (history ops)).weight) edges.toFinset) := by
  obtain ⟨t', edges, h1, h2, h3, C, h4, h5⟩ := C70_kruskal (exactOps ops) (by rw [exactOps_verts]; exact hne)
    (by rw [exactOps_verts, exactOps_edge]; exact hc)
  rw [exactOps_weight] at h3 h5
  rw [exactOps_verts] at h4
  obtain ⟨t, k1, k2⟩ := total_of (r := kruskal (history ops)) (fun ρ I hI h0 hρ hg => rel_kruskal hI h0 hρ hg) h1
  rw [length_of_tree h2 h5.tree, h3] at k2
  exact ⟨t, edges, k1, h2, C, h4, h5, k2⟩

/-- C174, `cheriton_tarjan` on a connected graph in which every vertex has two neighbours. -/
theorem C174_cheriton_tarjan_float {ch : ℕ → List V → V} (hch : ∀ i l, l ≠ [] → ch i l ∈ l) (ops : List (Op V (Double M)))
    (hne : (toAbs (history ops)).verts ≠ ∅)
    (hdeg : ∀ u ∈ (toAbs (history ops)).verts, ∃ a b, a ≠ b ∧ EdgeOf ops u a ∧ EdgeOf ops u b)
    (hc : ∀ u ∈ (toAbs (history ops)).verts, ∀ v ∈ (toAbs (history ops)).verts, Reach (EdgeOf ops) u v) :
    ∃ total edges, cheritonTarjan ch (history ops) = some (.ok (total, edges)) ∧
      edges.Pairwise (fun a b => toLex a < toLex b) ∧
      ∃ C : Finset V, (∀ v, v ∈ C ↔ v ∈ (toAbs (history ops)).verts) ∧
        MinSpanningTree (Double.exactWeight (toAbs (history ops)).weight) C edges.toFinset ∧
        TotalOf ops C.card total (totalWeight (Double.exactWeight (toAbs (history ops)).weight) edges.toFinset) := by
  obtain ⟨t', edges, h1, h2, h3, C, h4, h5⟩ := C107_cheriton_tarjan_partial hch (exactOps ops)
    (by rw [exactOps_verts]; exact hne) (by rw [exactOps_verts, exactOps_edge]; exact hdeg)
    (by rw [exactOps_verts, exactOps_edge]; exact hc)
  rw [exactOps_weight] at h3 h5
  rw [exactOps_verts] at h4
  obtain ⟨t, k1, k2⟩ := total_of (r := cheritonTarjan ch (history ops))
    (fun ρ I hI h0 hρ hg => rel_cheritonTarjan hI h0 hρ hg ch) h1
  rw [length_of_tree h2 h5.tree, h3] at k2
  exact ⟨t, edges, k1, h2, C, h4, h5, k2⟩

end floats

end Rosemary.Props
