/-
`plot_bn` (tools.py:53-119): C67.
-/
import Verif.Model.Plot
import Verif.Props.Tools

namespace Verif

variable {L P : Type} [DecidableEq L]

theorem mem_insertNew {α : Type} [DecidableEq α] {l : List α} {x y : α} :
    y ∈ insertNew l x ↔ y ∈ l ∨ y = x := by
  unfold insertNew
  split
  · constructor
    · exact Or.inl
    · rintro (h | h)
      · exact h
      · rw [h]; assumption
  · simp

theorem nodup_insertNew {α : Type} [DecidableEq α] {l : List α} {x : α} (h : l.Nodup) :
    (insertNew l x).Nodup := by
  unfold insertNew
  split
  · exact h
  · rw [List.nodup_append]
    exact ⟨h, by simp, by rintro a ha b hb rfl; simp at hb; subst hb; contradiction⟩

theorem insertNew_of_mem {α : Type} [DecidableEq α] {l : List α} {x : α} (h : x ∈ l) :
    insertNew l x = l := by
  unfold insertNew; rw [if_pos h]

theorem foldl_insertNew {α : Type} [DecidableEq α] : ∀ (vs l : List α),
    (∀ y, y ∈ vs.foldl insertNew l ↔ y ∈ l ∨ y ∈ vs) ∧
      (l.Nodup → (vs.foldl insertNew l).Nodup) ∧
      ((l ++ vs).Nodup → vs.foldl insertNew l = l ++ vs)
  | [], l => by simp
  | v :: vs, l => by
    obtain ⟨h1, h2, h3⟩ := foldl_insertNew vs (insertNew l v)
    refine ⟨fun y => ?_, fun h => h2 (nodup_insertNew h), fun h => ?_⟩
    · rw [List.foldl_cons, h1, mem_insertNew, List.mem_cons, or_assoc]
    · have hv : v ∉ l := by
        intro hv
        rw [List.nodup_append] at h
        exact h.2.2 v hv v (by simp) rfl
      have hi : insertNew l v = l ++ [v] := by unfold insertNew; rw [if_neg hv]
      rw [List.foldl_cons, h3 (by rw [hi]; simpa using h), hi]
      simp

theorem addEdges_spec : ∀ (arcs : List (L × L)) (g : DiGraph L),
    (∀ v, v ∈ (g.addEdges arcs).nodes ↔ v ∈ g.nodes ∨ ∃ a ∈ arcs, v = a.1 ∨ v = a.2) ∧
      (∀ a, a ∈ (g.addEdges arcs).edges ↔ a ∈ g.edges ∨ a ∈ arcs) ∧
      (g.nodes.Nodup → (g.addEdges arcs).nodes.Nodup) ∧
      (g.edges.Nodup → (g.addEdges arcs).edges.Nodup) ∧
      ((∀ a ∈ arcs, a.1 ∈ g.nodes ∧ a.2 ∈ g.nodes) → (g.addEdges arcs).nodes = g.nodes)
  | [], g => by simp [DiGraph.addEdges]
  | a :: arcs, g => by
    obtain ⟨h1, h2, h3, h4, h5⟩ := addEdges_spec arcs
      { nodes := insertNew (insertNew g.nodes a.1) a.2, edges := insertNew g.edges a }
    refine ⟨fun v => (h1 v).trans ?_, fun x => (h2 x).trans ?_,
      fun h => h3 (nodup_insertNew (nodup_insertNew h)), fun h => h4 (nodup_insertNew h), fun h => ?_⟩
    · simp only [mem_insertNew, List.mem_cons]
      constructor
      · rintro (((h | h) | h) | ⟨b, hb, h⟩)
        · exact Or.inl h
        · exact Or.inr ⟨a, Or.inl rfl, Or.inl h⟩
        · exact Or.inr ⟨a, Or.inl rfl, Or.inr h⟩
        · exact Or.inr ⟨b, Or.inr hb, h⟩
      · rintro (h | ⟨b, rfl | hb, h⟩)
        · exact Or.inl (Or.inl (Or.inl h))
        · rcases h with h | h
          · exact Or.inl (Or.inl (Or.inr h))
          · exact Or.inl (Or.inr h)
        · exact Or.inr ⟨b, hb, h⟩
    · simp only [mem_insertNew, List.mem_cons]
      tauto
    · have e : insertNew (insertNew g.nodes a.1) a.2 = g.nodes := by
        obtain ⟨ha, hb⟩ := h a (by simp)
        rw [insertNew_of_mem ha, insertNew_of_mem hb]
      refine (h5 ?_).trans e
      intro b hb
      simp only [e]
      exact h b (List.mem_cons_of_mem _ hb)

/-- The network that is drawn: the listed variables and the ends of the arcs. -/
theorem graph_spec (arcs : List (L × L)) (vars : List L) :
    let g := (({ nodes := [], edges := [] } : DiGraph L).addNodes vars).addEdges arcs
    g.nodes.Nodup ∧ g.edges.Nodup ∧ (∀ a, a ∈ g.edges ↔ a ∈ arcs) ∧
      (∀ v, v ∈ g.nodes ↔ v ∈ vars ∨ ∃ a ∈ arcs, v = a.1 ∨ v = a.2) ∧
      (vars.Nodup → (∀ a ∈ arcs, a.1 ∈ vars ∧ a.2 ∈ vars) → g.nodes = vars) := by
  obtain ⟨k1, k2, k3⟩ := foldl_insertNew vars []
  obtain ⟨h1, h2, h3, h4, h5⟩ := addEdges_spec arcs
    (({ nodes := [], edges := [] } : DiGraph L).addNodes vars)
  refine ⟨h3 (k2 (by simp)), h4 (by simp [DiGraph.addNodes]), fun a => ?_, fun v => ?_, ?_⟩
  · rw [h2]; simp [DiGraph.addNodes]
  · rw [h1]; simp [DiGraph.addNodes, k1]
  · intro hn ha
    have e : (({ nodes := [], edges := [] } : DiGraph L).addNodes vars).nodes = vars := by
      exact (k3 (by simpa using hn)).trans (by simp)
    rw [h5 (by rw [e]; exact ha), e]

theorem mapM_ok_map {α β : Type} (F : α → Except PyErr β) (G : α → β) (l : List α)
    (h : ∀ x ∈ l, F x = .ok (G x)) : l.mapM F = .ok (l.map G) := by
  induction l with
  | nil => rfl
  | cons a l ih =>
    rw [List.mapM_cons, h a (by simp), ih (fun x hx => h x (by simp [hx]))]
    rfl

theorem mapM_err {α β : Type} (F : α → Except PyErr β) (err : PyErr) (l : List α)
    (h1 : ∀ x ∈ l, ∀ e', F x = .error e' → e' = err) (h2 : ∃ x ∈ l, F x = .error err) :
    l.mapM F = .error err := by
  induction l with
  | nil => simp at h2
  | cons a l ih =>
    rw [List.mapM_cons]
    rcases hF : F a with e' | b
    · rw [h1 a (by simp) e' hF]; rfl
    · obtain ⟨x, hx, hxe⟩ := h2
      rcases List.mem_cons.1 hx with rfl | hx
      · rw [hF] at hxe; simp at hxe
      · rw [ih (fun x hx => h1 x (by simp [hx])) ⟨x, hx, hxe⟩]; rfl

/-- `v` occurs in the network with these variables and arcs. -/
def Spec.Occurs (arcs : List (L × L)) (vars : List L) (v : L) : Prop :=
  v ∈ vars ∨ ∃ a ∈ arcs, v = a.1 ∨ v = a.2

/-- The figure shows the network with the given variables and arcs, with every variable `v` at the
place `loc v`: every variable is drawn once, every arc is drawn once, as an arrow from the place of
its first variable to the place of the second one, and the labels are those of the nodes. -/
structure Spec.ShowsNet (arcs : List (L × L)) (vars : List L) (loc : L → P) (fig : Figure L P) :
    Prop where
  once : (fig.nodes.map Prod.fst).Nodup
  nodes : ∀ v p, (v, p) ∈ fig.nodes ↔ Occurs arcs vars v ∧ p = loc v
  arrows : ∃ es : List (L × L), es.Nodup ∧ (∀ a, a ∈ es ↔ a ∈ arcs) ∧
    fig.arrows = es.map (fun a => (loc a.1, loc a.2))
  labels : fig.labels = fig.nodes

open Spec

/-- The positions that are used. -/
def usedPos (grid : ℤ × ℤ → P) (vars : List L) (pos : Option (List (L × P))) :
    Except PyErr (List (L × P)) :=
  match pos with
  | some (p :: ps) => .ok (p :: ps)
  | _ => (setPositions vars).map (List.map (fun x => (x.1, grid x.2)))

theorem plotBn_unfold (grid : ℤ × ℤ → P) (arcs : List (L × L)) (vars : List L)
    (pos : Option (List (L × P))) (title file : Option String) {ps : List (L × P)}
    (hp : usedPos grid vars pos = .ok ps) :
    plotBn grid arcs vars pos title file =
      (drawNodes ps ((({ nodes := [], edges := [] } : DiGraph L).addNodes vars).addEdges
        arcs).nodes).bind (fun nodes =>
      (drawEdges ps ((({ nodes := [], edges := [] } : DiGraph L).addNodes vars).addEdges
        arcs).edges).bind (fun arrows =>
      (drawNodes ps ((({ nodes := [], edges := [] } : DiGraph L).addNodes vars).addEdges
        arcs).nodes).bind (fun labels =>
      .ok { nodes := nodes, arrows := arrows, labels := labels, title := truthyStr title
            savedTo := truthyStr file }))) := by
  unfold plotBn
  unfold usedPos at hp
  rcases pos with _ | _ | ⟨p, q⟩ <;> simp only at hp <;> simp only [hp] <;> rfl

theorem plotBn_shows (grid : ℤ × ℤ → P) (arcs : List (L × L)) (vars : List L)
    (pos : Option (List (L × P))) (title file : Option String) {ps : List (L × P)}
    (hp : usedPos grid vars pos = .ok ps) (loc : L → P)
    (hl : ∀ v, Occurs arcs vars v → dictGet ps v = some (loc v)) :
    ∃ fig, plotBn grid arcs vars pos title file = .ok fig ∧ ShowsNet arcs vars loc fig ∧
      fig.nodes.map Prod.fst =
        ((({ nodes := [], edges := [] } : DiGraph L).addNodes vars).addEdges arcs).nodes ∧
      fig.title = truthyStr title ∧ fig.savedTo = truthyStr file := by
  rw [plotBn_unfold _ _ _ _ _ _ hp]
  obtain ⟨h1, h2, h3, h4, _⟩ := graph_spec arcs vars
  set g := (({ nodes := [], edges := [] } : DiGraph L).addNodes vars).addEdges arcs
  have hn : drawNodes ps g.nodes = .ok (g.nodes.map (fun v => (v, loc v))) := by
    refine mapM_ok_map _ _ _ fun v hv => ?_
    simp [posOf, hl v ((h4 v).1 hv), Except.map]
  have he : drawEdges ps g.edges = .ok (g.edges.map (fun a => (loc a.1, loc a.2))) := by
    refine mapM_ok_map _ _ _ fun a ha => ?_
    have ha' := (h3 a).1 ha
    simp only [posOf, hl a.1 (Or.inr ⟨a, ha', Or.inl rfl⟩), hl a.2 (Or.inr ⟨a, ha', Or.inr rfl⟩)]
    rfl
  have hm : (g.nodes.map (fun v => (v, loc v))).map Prod.fst = g.nodes := by
    simp [Function.comp_def]
  rw [hn, he]
  refine ⟨_, rfl, ⟨by rw [hm]; exact h1, ?_, ⟨g.edges, h2, h3, rfl⟩, rfl⟩, hm, rfl, rfl⟩
  intro v p
  simp only [List.mem_map, Prod.mk.injEq]
  constructor
  · rintro ⟨w, hw, rfl, rfl⟩
    exact ⟨(h4 w).1 hw, rfl⟩
  · rintro ⟨hv, rfl⟩
    exact ⟨v, (h4 v).2 hv, rfl, rfl⟩

theorem plotBn_error (grid : ℤ × ℤ → P) (arcs : List (L × L)) (vars : List L)
    (pos : Option (List (L × P))) (title file : Option String) {ps : List (L × P)}
    (hp : usedPos grid vars pos = .ok ps) (v : L) (hv : Occurs arcs vars v)
    (hl : dictGet ps v = none) : plotBn grid arcs vars pos title file = .error .exception := by
  rw [plotBn_unfold _ _ _ _ _ _ hp]
  obtain ⟨_, _, _, h4, _⟩ := graph_spec arcs vars
  have : drawNodes ps ((({ nodes := [], edges := [] } : DiGraph L).addNodes vars).addEdges
      arcs).nodes = .error .exception := by
    refine mapM_err _ _ _ (fun x _ e' he => ?_) ⟨v, (h4 v).2 hv, by simp [posOf, hl, Except.map]⟩
    unfold posOf at he
    split at he <;> simp [Except.map] at he
    exact he.symm
  rw [this]
  rfl

theorem dictGet_map_fst {β : Type} (d : List (L × β)) (v : L) :
    (dictGet d v).isSome = true ↔ v ∈ d.map Prod.fst := by
  unfold dictGet
  rw [Option.isSome_map, List.find?_isSome]
  simp only [decide_eq_true_eq, List.mem_map]

theorem dictGet_of_mem {β : Type} {d : List (L × β)} {v : L} {b : β}
    (hn : (d.map Prod.fst).Nodup) (h : (v, b) ∈ d) : dictGet d v = some b := by
  induction d with
  | nil => simp at h
  | cons x d ih =>
    rw [List.map_cons, List.nodup_cons] at hn
    unfold dictGet
    rw [List.find?_cons]
    rcases List.mem_cons.1 h with h | h
    · subst h; simp
    · have : x.1 ≠ v := by
        intro hx
        exact hn.1 (hx ▸ List.mem_map.2 ⟨_, h, rfl⟩)
      simp only [this, decide_false]
      exact ih hn.2 h

/-- **C67** With computed positions (`pos` is `None` or empty), `plot_bn` draws the network: the
variables in the order of the list, no two at the same place, and every arc once.  It needs at least
one variable, no repeated name, and arcs between listed variables. -/
theorem C67_computed {grid : ℤ × ℤ → P} (hg : Function.Injective grid) {arcs : List (L × L)}
    {vars : List L} (hne : vars ≠ []) (hn : vars.Nodup) (ha : ∀ a ∈ arcs, a.1 ∈ vars ∧ a.2 ∈ vars)
    {pos : Option (List (L × P))} (hp : pos = none ∨ pos = some []) (title file : Option String) :
    ∃ fig loc, plotBn grid arcs vars pos title file = .ok fig ∧ ShowsNet arcs vars loc fig ∧
      fig.nodes.map Prod.fst = vars ∧ (fig.nodes.map Prod.snd).Nodup := by
  obtain ⟨d, hd, hk, _⟩ := C40_positions hne hn
  have ho := C40_no_overlap hn hd
  have hu : usedPos grid vars pos = .ok (d.map (fun x => (x.1, grid x.2))) := by
    rcases hp with rfl | rfl <;> simp [usedPos, hd, Except.map]
  have hkeys : (d.map (fun x => (x.1, grid x.2))).map Prod.fst = vars := by
    rw [List.map_map, ← hk]; rfl
  obtain ⟨w, hw⟩ := List.exists_mem_of_ne_nil vars hne
  obtain ⟨⟨_, b0⟩, _, _⟩ := List.mem_map.1 (hk ▸ hw)
  let loc : L → P := fun v => (dictGet (d.map (fun x => (x.1, grid x.2))) v).getD (grid b0)
  have hocc : ∀ v, Occurs arcs vars v → v ∈ vars := by
    rintro v (h | ⟨a, h, rfl | rfl⟩)
    · exact h
    · exact (ha a h).1
    · exact (ha a h).2
  obtain ⟨fig, h1, h2, h3, _⟩ := plotBn_shows grid arcs vars pos title file hu loc (by
    intro v hv
    have := (dictGet_map_fst (d.map (fun x => (x.1, grid x.2))) v).2 (by rw [hkeys]; exact hocc v hv)
    obtain ⟨b, hb⟩ := Option.isSome_iff_exists.1 this
    show _ = some (Option.getD _ _)
    rw [hb]; rfl)
  have h3' : fig.nodes.map Prod.fst = vars := by
    rw [h3]
    obtain ⟨_, _, _, _, h5⟩ := graph_spec arcs vars
    exact h5 hn ha
  refine ⟨fig, loc, h1, h2, h3', ?_⟩
  have hfig : fig.nodes = d.map (fun x => (x.1, grid x.2)) := by
    have e : fig.nodes = (fig.nodes.map Prod.fst).map (fun v => (v, loc v)) := by
      rw [List.map_map]
      conv_lhs => rw [← List.map_id fig.nodes]
      refine List.map_congr_left ?_
      rintro ⟨v, p⟩ hv
      have := (h2.nodes v p).1 hv
      simp [this.2]
    rw [e, h3', ← hk, List.map_map]
    refine List.map_congr_left ?_
    rintro ⟨v, b⟩ hv
    have : dictGet (d.map (fun x => (x.1, grid x.2))) v = some (grid b) :=
      dictGet_of_mem (by rw [hkeys]; exact hn) (List.mem_map.2 ⟨(v, b), hv, rfl⟩)
    simp [loc, this]
  rw [hfig, List.map_map]
  have : (Prod.snd ∘ fun x : L × (ℤ × ℤ) => (x.1, grid x.2)) = grid ∘ Prod.snd := rfl
  rw [this, ← List.map_map]
  exact ho.map hg

/-- **C67** With given positions: the figure is drawn iff every variable that occurs has a position,
and then every variable is at its given position; otherwise an exception is raised. -/
theorem C67_given {grid : ℤ × ℤ → P} {arcs : List (L × L)} {vars : List L} {ps : List (L × P)}
    (hps : ps ≠ []) (title file : Option String) :
    (∀ loc : L → P, (∀ v, Occurs arcs vars v → dictGet ps v = some (loc v)) →
      ∃ fig, plotBn grid arcs vars (some ps) title file = .ok fig ∧ ShowsNet arcs vars loc fig) ∧
    (∀ v, Occurs arcs vars v → v ∉ ps.map Prod.fst →
      plotBn grid arcs vars (some ps) title file = .error .exception) := by
  have hu : usedPos grid vars (some ps) = .ok ps := by
    cases ps with
    | nil => simp at hps
    | cons => rfl
  constructor
  · intro loc hl
    obtain ⟨fig, h1, h2, _⟩ := plotBn_shows grid arcs vars (some ps) title file hu loc hl
    exact ⟨fig, h1, h2⟩
  · intro v hv hm
    refine plotBn_error grid arcs vars (some ps) title file hu v hv ?_
    rw [← Option.not_isSome_iff_eq_none, dictGet_map_fst]
    exact hm

/-- **C67** With computed positions an arc with a variable that is not in `var_names` is an exception,
and so is an empty list of variables. -/
theorem C67_unlisted {grid : ℤ × ℤ → P} {arcs : List (L × L)} {vars : List L}
    {pos : Option (List (L × P))} (hp : pos = none ∨ pos = some []) (title file : Option String) :
    (vars = [] → plotBn grid arcs vars pos title file = .error .zeroDivision) ∧
    (vars.Nodup → vars ≠ [] → ∀ a ∈ arcs, (a.1 ∉ vars ∨ a.2 ∉ vars) →
      plotBn grid arcs vars pos title file = .error .exception) := by
  constructor
  · rintro rfl
    unfold plotBn
    rcases hp with rfl | rfl <;> simp only [C40_empty] <;> rfl
  · intro hn hne a ha hav
    obtain ⟨d, hd, hk, _⟩ := C40_positions hne hn
    have hu : usedPos grid vars pos = .ok (d.map (fun x => (x.1, grid x.2))) := by
      rcases hp with rfl | rfl <;> simp [usedPos, hd, Except.map]
    have hkeys : (d.map (fun x => (x.1, grid x.2))).map Prod.fst = vars := by
      rw [List.map_map, ← hk]; rfl
    rcases hav with h | h
    · refine plotBn_error grid arcs vars pos title file hu a.1 (Or.inr ⟨a, ha, Or.inl rfl⟩) ?_
      rw [← Option.not_isSome_iff_eq_none, dictGet_map_fst, hkeys]
      exact h
    · refine plotBn_error grid arcs vars pos title file hu a.2 (Or.inr ⟨a, ha, Or.inr rfl⟩) ?_
      rw [← Option.not_isSome_iff_eq_none, dictGet_map_fst, hkeys]
      exact h

example : plotBn id [("a", "b"), ("c", "b"), ("a", "b")] ["a", "b", "c"] none (some "BN") (some "") =
    .ok { nodes := [("a", (0, 0)), ("b", (0, -1)), ("c", (0, -2))]
          arrows := [((0, 0), (0, -1)), ((0, -2), (0, -1))]
          labels := [("a", (0, 0)), ("b", (0, -1)), ("c", (0, -2))]
          title := some "BN", savedTo := none } := by decide +kernel

example : plotBn id [("a", "d")] ["a", "b", "c"] none none none = .error .exception := by
  decide +kernel

example : plotBn id [("a", "b")] ["a"] (some [("a", (1, 1)), ("b", (2, 2))]) none none =
    .ok { nodes := [("a", (1, 1)), ("b", (2, 2))], arrows := [((1, 1), (2, 2))]
          labels := [("a", (1, 1)), ("b", (2, 2))], title := none, savedTo := none } := by
  decide +kernel

end Verif
