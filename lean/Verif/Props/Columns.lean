/-
C71 (variables and columns in the Bayesian networks) and C72 (which structure search is used).
-/
import Verif.Lemmas.Columns
import Verif.Props.Categorical
import Verif.Props.Archive

namespace Verif

open Spec

set_option linter.unusedSectionVars false

/-! ### C71 -/

section continuous

variable {S L K Ω : Type} [DecidableEq L] [Field K] [LinearOrder K] {lib : NetLib S L K Ω}

/-- **C71** (`GBN`, `SPBN`, `KDEBN`): column `j` of a sample is the library's column for the variable
`variables[j]`, wherever the library puts it; if the library has no such column, `sample` raises
`KeyError`. -/
theorem C71_sample {b : BNet S L K} {size : ℤ} {ω : Ω} {d : Frame L K}
    (hd : lib.sample b.pm size ω = .ok d) (ht : Table d) :
    ((∃ l ∈ b.vars, l ∉ d.cols) → b.sample lib size ω = .error (.keyError "column")) ∧
    ((∀ l ∈ b.vars, l ∈ d.cols) → ∃ g, b.sample lib size ω = .ok g ∧ g.rows.length = d.rows.length ∧
      ∀ (i j : ℕ) l x, b.vars[j]? = some l → ValueAt d i l x →
        ∃ r, g.rows[i]? = some r ∧ r[j]? = some x) := by
  unfold BNet.sample
  rw [hd]
  simp only [select_eq]
  constructor
  · rintro ⟨l, hl, hn⟩
    rw [if_neg (fun h => hn (h l hl))]
  · intro h
    rw [if_pos h]
    refine ⟨_, rfl, by simp, ?_⟩
    intro i j l x hj hx
    have hl := h l (List.mem_of_getElem? hj)
    have hc := (cell_iff ht hl).2 hx
    have hi : i < d.rows.length := by
      obtain ⟨_, r, _, hr, _⟩ := hx
      exact (List.getElem?_eq_some_iff.1 hr).1
    refine ⟨b.vars.map (fun l => (cell d i l).getD 0), ?_, ?_⟩
    · simp [List.getElem?_range hi]
    · simp [hj, hc]

end continuous

section continuousRuns

variable {S L K : Type} [DecidableEq L] [Field K] [LinearOrder K] [FloorRing K] {fl : K → K}
  {lib : NetLib S L K (Draws K)} {s' : S → ℤ → Draws K → Except PyErr (Frame L K)} {name : ℕ → L}
  {cfg : NetCfg K L}

theorem netSample_same {Ω : Type} {lib : NetLib S L K Ω} {s' : S → ℤ → Ω → Except PyErr (Frame L K)}
    (hs : ∀ pm n ω, Agree SameTable (lib.sample pm n ω) (s' pm n ω)) (b : BNet S L K) (n : ℤ) (ω : Ω) :
    b.sample { lib with sample := s' } n ω = b.sample lib n ω := by
  unfold BNet.sample
  have h := hs b.pm n ω
  rcases hx : lib.sample b.pm n ω with err | d <;> rcases hy : s' b.pm n ω with err' | d' <;>
    rw [hx, hy] at h
  · cases (show err = err' from h); simp only [hy]
  · exact h.elim
  · exact h.elim
  · simp only [hy]
    exact (select_same h _).symm

/-- **C71** (`EGNA`, `SPEDA`, `MultivariateKEDA`): the order in which the library lists the columns of the
tables it simulates has no influence: the objects behave the same. -/
theorem C71_column_order (hs : ∀ pm n ω, Agree SameTable (lib.sample pm n ω) (s' pm n ω)) :
    EGNA fl { lib with sample := s' } name cfg = EGNA fl lib name cfg ∧
    ∀ l, SPEDA fl { lib with sample := s' } name l cfg = SPEDA fl lib name l cfg ∧
      MultivariateKEDA fl { lib with sample := s' } name l cfg = MultivariateKEDA fl lib name l cfg := by
  have key : (fun (b : BNet S L K) ω => b.sample { lib with sample := s' } cfg.base.sizeGen ω) =
      fun b ω => b.sample lib cfg.base.sizeGen ω := by
    funext b ω
    exact netSample_same hs b _ ω
  have key' : (fun (a : Arch S L K) ω => a.net.sample { lib with sample := s' } cfg.base.sizeGen ω) =
      fun a ω => a.net.sample lib cfg.base.sizeGen ω := by
    funext a ω
    exact netSample_same hs a.net _ ω
  refine ⟨?_, fun l => ⟨?_, ?_⟩⟩
  · unfold EGNA
    rw [key]
    rfl
  · unfold SPEDA archEda
    rw [key']
    rfl
  · unfold MultivariateKEDA archEda
    rw [key']
    rfl

end continuousRuns

section discrete

variable {P L V Ω : Type} [DecidableEq L] {lib : PgmLib P L V Ω}

theorem addEdges_ok {net : PgmNet P L} {found : List (L × L)} (h : Acyclic (net.arcs ++ found))
    (hn : (net.arcs ++ found).Nodup) (hm : ∀ a ∈ found, a.1 ∈ net.nodes ∧ a.2 ∈ net.nodes) :
    net.addEdges found = .ok { net with arcs := net.arcs ++ found } := by
  induction found generalizing net with
  | nil => simp [PgmNet.addEdges]
  | cons a as ih =>
    obtain ⟨rank, hr⟩ := h
    have hpath : ∀ u v, HasPath net.arcs u v → rank u ≤ rank v := by
      intro u v huv
      induction huv with
      | refl => exact le_refl _
      | tail _ hbc ih => exact ih.trans (hr (_, _) (List.mem_append_left _ hbc)).le
    have ha := hr a (by simp)
    have hma := hm a (by simp)
    have hadd : net.addEdge a.1 a.2 = .ok { net with arcs := net.arcs ++ [a] } := by
      unfold PgmNet.addEdge
      rw [if_neg (show ¬ a.1 = a.2 by intro hh; rw [hh] at ha; exact lt_irrefl _ ha),
        if_neg (show ¬ (a.1 ∈ net.nodes ∧ a.2 ∈ net.nodes ∧ HasPath net.arcs a.2 a.1) by
          rintro ⟨_, _, hp⟩; exact absurd (hpath _ _ hp) (not_le.2 ha))]
      have hna : (a.1, a.2) ∉ net.arcs := by
        intro hin
        exact (List.disjoint_of_nodup_append hn) hin (by simp)
      rw [if_neg hna]
      simp [insertNode, hma]
    unfold PgmNet.addEdges
    rw [hadd]
    simp only
    rw [ih (net := { net with arcs := net.arcs ++ [a] })]
    · simp
    · exact ⟨rank, by simpa using hr⟩
    · simpa using hn
    · intro x hx
      exact hm x (by simp [hx])

theorem foldl_insertNode {vars acc : List L} (h : (acc ++ vars).Nodup) :
    vars.foldl insertNode acc = acc ++ vars := by
  induction vars generalizing acc with
  | nil => simp
  | cons a as ih =>
    have ha : a ∉ acc := fun hin => (List.disjoint_of_nodup_append h) hin (by simp)
    rw [List.foldl_cons, insertNode, if_neg ha, ih (by simpa using h)]
    simp

/-- What `learn` does when the search finds a directed acyclic graph over the variables. -/
theorem dbn_learn {b : DBN P L} {g : Gen (List V)} {score : String} {ω : Ω} (hl : FindsDags lib)
    (hn : b.vars.Nodup) : b.learn lib g score ω =
      if g.cols = b.vars.length then
        match lib.search { cols := b.vars, rows := g.rows } score ω with
        | .error err => .error err
        | .ok found =>
          match lib.fit b.vars found { cols := b.vars, rows := g.rows } with
          | .error err => .error err
          | .ok p => .ok { b with pm := ⟨b.vars, found, some p⟩ }
      else .error .valueError := by
  unfold DBN.learn toFrame
  by_cases hc : g.cols = b.vars.length
  · rw [if_pos hc, if_pos hc]
    simp only
    rcases hs : lib.search { cols := b.vars, rows := g.rows } score ω with err | found
    · rfl
    obtain ⟨h1, h2, h3⟩ := hl _ _ _ _ hs
    simp only
    rw [foldl_insertNode (by simpa using hn), addEdges_ok (by simpa using h1) (by simpa using h2)
      (by simpa using h3)]
    simp only [List.nil_append]
    cases lib.fit b.vars found { cols := b.vars, rows := g.rows } <;> rfl
  · rw [if_neg hc, if_neg hc]

/-- **C71** (`BN`): after `learn`, the structure consists of the arcs found by the search, over the
variables of the object (nothing is left of an earlier `learn`); `learn` fails only if the data has
another number of columns, or in the library. -/
theorem C71_BN_structure {b : DBN P L} {g : Gen (List V)} {score : String} {ω : Ω} (hl : FindsDags lib)
    (hn : b.vars.Nodup) :
    (g.cols ≠ b.vars.length → b.learn lib g score ω = .error .valueError) ∧
    ∀ b', b.learn lib g score ω = .ok b' → b'.pm.nodes = b.vars ∧
      lib.search { cols := b.vars, rows := g.rows } score ω = .ok b'.printStructure ∧
      ∀ pm, DBN.learn lib { b with pm := pm } g score ω = .ok b' := by
  rw [dbn_learn hl hn]
  constructor
  · intro h; rw [if_neg h]
  · intro b' hb
    have hb2 : ∀ pm, DBN.learn lib { b with pm := pm } g score ω = .ok b' := by
      intro pm
      rw [dbn_learn (b := { b with pm := pm }) hl hn]
      exact hb
    split at hb
    · split at hb
      · cases hb
      · rename_i found hf
        split at hb
        · cases hb
        · cases hb
          exact ⟨rfl, hf, hb2⟩
    · cases hb

/-- **C71** (`BN`): column `j` of a sample is the library's column for `variables[j]`. -/
theorem C71_BN_sample {b : DBN P L} {size : ℤ} {ω : Ω} {dt : DType} {d : Frame L V}
    (hd : lib.simulate b.pm size ω = .ok (dt, d)) (ht : Table d) :
    ((∃ l ∈ b.vars, l ∉ d.cols) → b.sample lib size ω = .error (.keyError "column")) ∧
    ((∀ l ∈ b.vars, l ∈ d.cols) → ∃ g, b.sample lib size ω = .ok g ∧ g.rows.length = d.rows.length ∧
      ∀ (i : ℕ) r, g.rows[i]? = some r → r.length = b.vars.length ∧
        ∀ (j : ℕ) l x, b.vars[j]? = some l → (r[j]? = some x ↔ ValueAt d i l x)) := by
  unfold DBN.sample
  rw [hd]
  simp only [pick_eq]
  constructor
  · rintro ⟨l, hl, hn⟩
    rw [if_neg (fun h => hn (h l hl))]
  · intro h
    rw [if_pos h]
    refine ⟨_, rfl, by simp, ?_⟩
    intro i r hr
    simp only [List.getElem?_map, Option.map_eq_some_iff] at hr
    obtain ⟨i', hi', rfl⟩ := hr
    have hlt : i < d.rows.length := by
      have := (List.getElem?_eq_some_iff.1 hi').1
      simpa using this
    rw [List.getElem?_range hlt] at hi'
    obtain rfl := Option.some.inj hi'
    obtain ⟨h1, h2⟩ := filterMap_all (fun l hl => cell_some ht hlt (h l hl))
    refine ⟨h1, ?_⟩
    intro j l x hj
    rw [h2, hj, Option.bind_some, cell_iff ht (h l (List.mem_of_getElem? hj))]

/-- **C71** (`BN`): reordering the variables together with the columns of the data reorders the columns
of the samples and changes nothing else. -/
theorem C71_BN_reorder (hl : ByLabel lib) (hf : FindsDags lib) {b b' : DBN P L}
    (hp : b.vars.Perm b'.vars) (hn : b.vars.Nodup) {g g' : Gen (List V)}
    (hd : SameTable ⟨b.vars, g.rows⟩ ⟨b'.vars, g'.rows⟩) (hc : g.cols = b.vars.length)
    (hc' : g'.cols = b'.vars.length) (score : String) (ω : Ω) :
    Agree (fun c c' => c.vars = b.vars ∧ c'.vars = b'.vars ∧ c'.printStructure = c.printStructure ∧
        ∀ size ω', Agree (fun s s' => s.dt = s'.dt ∧ SameTable ⟨b.vars, s.rows⟩ ⟨b'.vars, s'.rows⟩)
          (c.sample lib size ω') (c'.sample lib size ω'))
      (b.learn lib g score ω) (b'.learn lib g' score ω) := by
  have hn' : b'.vars.Nodup := hp.nodup_iff.1 hn
  rw [dbn_learn hf hn, dbn_learn hf hn', if_pos hc, if_pos hc', ← hl.search _ _ score ω hd]
  rcases hs : lib.search { cols := b.vars, rows := g.rows } score ω with err | found
  · exact rfl
  simp only
  rw [← hl.fit b.vars b'.vars found _ _ hd hp]
  rcases hft : lib.fit b.vars found { cols := b.vars, rows := g.rows } with err | p
  · exact rfl
  refine ⟨rfl, rfl, rfl, ?_⟩
  intro size ω'
  have hsim := hl.simulate ⟨b.vars, found, some p⟩ ⟨b'.vars, found, some p⟩ size ω' ⟨hp, rfl, rfl⟩
  unfold DBN.sample
  simp only
  rcases hx : lib.simulate ⟨b.vars, found, some p⟩ size ω' with err | ⟨dt, d⟩ <;>
    rcases hy : lib.simulate ⟨b'.vars, found, some p⟩ size ω' with err' | ⟨dt', d'⟩ <;>
    rw [hx, hy] at hsim
  · exact hsim
  · exact hsim.elim
  · exact hsim.elim
  obtain ⟨h1, h2⟩ := hsim
  simp only at h1 h2
  subst h1
  simp only
  rw [pick_same h2 b.vars]
  by_cases hall : ∀ l ∈ b.vars, l ∈ d'.cols
  · have hall' : ∀ l ∈ b'.vars, l ∈ d'.cols := fun l hl => hall l (hp.mem_iff.2 hl)
    have e1 := pick_eq d' b.vars
    have e2 := pick_eq d' b'.vars
    rw [if_pos hall] at e1
    rw [if_pos hall'] at e2
    obtain ⟨p1, p2, p3⟩ := pick_table h2.right hn hall e1
    obtain ⟨q1, q2, q3⟩ := pick_table h2.right hn' hall' e2
    rw [e1, e2]
    exact ⟨rfl, p2, q2, p1.trans q1.symm, fun l => hp.mem_iff,
      fun i l x => (p3 i l x).trans ((and_congr_left' hp.mem_iff).trans (q3 i l x).symm)⟩
  · rw [pick_eq, pick_eq, if_neg hall, if_neg (fun h => hall (fun l hl => h l (hp.mem_iff.1 hl)))]
    exact rfl

end discrete

section discreteRuns

variable {P α K : Type} [Field K] [LinearOrder K] [FloorRing K] {fl : K → K}
  {lib : PgmLib P ℕ (Cat α) (Draws K)} {cfg : CatCfg α K}

/-- **C71** (`EBNA`, `BOA`): the order in which the library lists the columns of the tables it simulates
has no influence. -/
theorem C71_BN_column_order {s' : PgmNet P ℕ → ℤ → Draws K → Except PyErr (DType × Frame ℕ (Cat α))}
    (hs : ∀ pm n ω, Agree (fun x y => x.1 = y.1 ∧ SameTable x.2 y.2) (lib.simulate pm n ω) (s' pm n ω)) :
    EBNA fl { lib with simulate := s' }.toBNLib cfg = EBNA fl lib.toBNLib cfg ∧
    BOA fl { lib with simulate := s' }.toBNLib cfg = BOA fl lib.toBNLib cfg := by
  have key : ({ lib with simulate := s' } : PgmLib P ℕ (Cat α) (Draws K)).toBNLib = lib.toBNLib := by
    unfold PgmLib.toBNLib
    congr 1
    funext o n ω
    cases o with
    | none => rfl
    | some b =>
      simp only
      unfold DBN.sample
      have h := hs b.pm n ω
      rcases hx : lib.simulate b.pm n ω with err | ⟨dt, d⟩ <;>
        rcases hy : s' b.pm n ω with err' | ⟨dt', d'⟩ <;> rw [hx, hy] at h
      · cases (show err = err' from h); simp only [hy]
      · exact h.elim
      · exact h.elim
      · obtain ⟨h1, h2⟩ := h
        simp only at h1 h2
        subst h1
        simp only [hy]
        rw [pick_same h2]
  rw [key]
  exact ⟨rfl, rfl⟩

/-- The assumption of C56 about the library follows from one about pgmpy: it finds directed acyclic graphs
over the variables, and simulates for each variable only values from its column of the data. -/
theorem pgm_sound (hf : FindsDags lib) (ho : OnlySeen lib) : lib.toBNLib.Sound := by
  intro score n g ω net size ω' g' hfit hsim r' hr'
  simp only [PgmLib.toBNLib] at hfit hsim
  rw [dbn_learn hf (by exact List.nodup_range)] at hfit
  split at hfit
  · rename_i hc
    split at hfit
    · cases hfit
    split at hfit
    · cases hfit
    rename_i found hfound p hp
    obtain rfl := Except.ok.inj hfit
    unfold DBN.sample at hsim
    simp only at hsim
    split at hsim
    · cases hsim
    rename_i dt d hd
    obtain ⟨ht, hv⟩ := ho _ _ _ _ _ _ _ _ hp hd
    split at hsim
    · cases hsim
    rename_i rows hrows
    obtain rfl := Except.ok.inj hsim
    have hall : ∀ l ∈ List.range n, l ∈ d.cols := by
      by_contra hna
      rw [show (DBN.new (List.range n) : DBN P ℕ).vars = List.range n from rfl, pick_eq,
        if_neg hna] at hrows
      cases hrows
    obtain ⟨_, h2, h3⟩ := pick_table ht List.nodup_range hall hrows
    have hlen := h2.rect r' hr'
    simp only [List.length_range] at hlen
    refine ⟨hlen, ?_⟩
    intro j v hj
    obtain ⟨i, hi⟩ := List.mem_iff_getElem?.1 hr'
    have hjn : j < n := by
      have := (List.getElem?_eq_some_iff.1 hj).1
      omega
    have h4 := (h3 i j v).1 ⟨j, r', by simp [List.getElem?_range hjn], hi, hj⟩
    obtain ⟨i', k, r, hk, hr, hx⟩ := hv j h4.1 i v h4.2
    have hk' : k = j := by
      simp only [DBN.new] at hk
      have hkn : k < n := by
        have := (List.getElem?_eq_some_iff.1 hk).1
        simpa using this
      rw [List.getElem?_range hkn] at hk
      exact Option.some.inj hk
    subst hk'
    exact ⟨r, List.mem_of_getElem? hr, hx⟩
  · cases hfit

end discreteRuns

/-! ### C72 -/

section search

variable {S L K C : Type} [DecidableEq L] [Field K] [LinearOrder K] [IsStrictOrderedRing K] [FloorRing K]
  [PyCost C] {fl : K → K}
  {lib : NetLib S L K (Draws K)} {hc' : Frame L K → HcArgs S L → Draws K → Except PyErr S}
  {name : ℕ → L} {cfg : NetCfg K L}

theorem hcArgs_fields (kind : BnType) (e : S) (white black : Option (List (L × L))) :
    (hcArgs kind e 10 white black).whitelist = white.getD [] ∧
    (hcArgs kind e 10 white black).blacklist = black.getD [] ∧
    (hcArgs kind e 10 white black).numFolds = 10 ∧
    (hcArgs kind e 10 white black).bnType = (if kind = .gaussian then some .gaussian else none) ∧
    (hcArgs kind e 10 white black).start = (if kind = .gaussian then none else some e) ∧
    (hcArgs kind e 10 white black).operators = (match kind with
      | .gaussian => none
      | .semiparametric => some ["arcs", "node_type"]
      | .kde => some ["arcs"]) := by
  unfold hcArgs
  cases kind <;> rcases white with _ | (_ | ⟨w, ws⟩) <;> rcases black with _ | (_ | ⟨k, ks⟩) <;>
    simp [truthy, hcBase]

/-- What `learn` keeps. -/
theorem netLearn_keeps {b b' : BNet S L K} {g : Gen (List K)} {nf : ℤ} {ω : Draws K}
    (h : b.learn lib g nf ω = .ok b') :
    b'.kind = b.kind ∧ b'.vars = b.vars ∧ b'.white = b.white ∧ b'.black = b.black := by
  unfold BNet.learn at h
  split at h
  · cases h
  split at h
  · cases h
  split at h
  · cases h
  split at h <;> cases h <;> exact ⟨rfl, rfl, rfl, rfl⟩

theorem netLearn_congr {b : BNet S L K} {g : Gen (List K)} {ω : Draws K}
    (h : ∀ rows, hc' ⟨b.vars, rows⟩ (hcArgs b.kind (lib.new b.kind b.vars) 10 b.white b.black) ω =
      lib.hc ⟨b.vars, rows⟩ (hcArgs b.kind (lib.new b.kind b.vars) 10 b.white b.black) ω) :
    b.learn { lib with hc := hc' } g 10 ω = b.learn lib g 10 ω := by
  unfold BNet.learn toFrame
  by_cases hc : g.cols = b.vars.length
  · rw [if_pos hc]
    simp only [h]
  · rw [if_neg hc]

theorem mkEda_swap {R σ Ω : Type} {bc : BaseCfg K R}
    {N : Ω → Except PyErr (Gen R → Except PyErr (Gen R))} {init : Ω → Except PyErr (Gen R)}
    {l l' : σ → Gen R → Gen R → Ω → Except PyErr σ} {s s' : σ → Ω → Except PyErr (Gen R)} {e : Eda R σ Ω}
    (h : mkEdaG fl bc N init l s = .ok e) :
    mkEdaG fl bc N init l' s' = .ok { e with updatePm := l', sample := s' } := by
  unfold mkEdaG at h ⊢
  split at h
  · cases h
  rename_i hd
  rw [if_neg hd]
  simp only at h ⊢
  split at h
  · rename_i hi
    cases h
    simp
  · rename_i data hi
    split at h
    · rename_i hcols
      cases h
      simp [hcols]
    · cases h

/-- **C72** (`EGNA`): the only structure search that is used is hill climbing over Gaussian networks on the
variables, with the given lists and the defaults of the library: a library that agrees on these calls gives
the same runs. -/
theorem C72_EGNA {e : Eda (List K) (BNet S L K) (Draws K)} {b : BNet S L K}
    (h : EGNA fl lib name cfg = .ok (e, b))
    (hh : ∀ rows args ω, args.bnType = some .gaussian → args.start = none → args.operators = none →
      args.numFolds = 10 → args.whitelist = cfg.white.getD [] → args.blacklist = cfg.black.getD [] →
      hc' ⟨(List.range cfg.base.nVars).map name, rows⟩ args ω =
        lib.hc ⟨(List.range cfg.base.nVars).map name, rows⟩ args ω) :
    ∃ e', EGNA fl { lib with hc := hc' } name cfg = .ok (e', b) ∧
      ∀ (env : Env C) (f : ℕ → List K → C) (ftol : C) (ρ : Rand (Draws K)),
        minimize env e' f ftol b ρ = minimize env e f ftol b ρ := by
  obtain ⟨h1, ⟨u, hu⟩, h3⟩ := EGNA_ok h
  refine ⟨{ e with
    updatePm := fun b g _ ω => b.learn { lib with hc := hc' } g 10 ω
    sample := fun b ω => b.sample { lib with hc := hc' } cfg.base.sizeGen ω }, ?_, ?_⟩
  · unfold EGNA mkEda
    unfold mkEda at h1
    rw [mkEda_swap h1]
    simp only
    rw [hu, h3]
    rfl
  · intro env f ftol ρ
    have hm := mkEda_ok h1
    refine minimize_congr (Inv := fun m => m.kind = .gaussian ∧
      m.vars = (List.range cfg.base.nVars).map name ∧ m.white = cfg.white ∧ m.black = cfg.black) ?_ ?_ ?_ ?_
    · rintro m g el ω ⟨i1, i2, i3, i4⟩
      rw [hm.updatePm]
      refine netLearn_congr ?_
      intro rows
      obtain ⟨a1, a2, a3, a4, a5, a6⟩ := hcArgs_fields m.kind (lib.new m.kind m.vars) m.white m.black
      rw [i2]
      rw [i2] at a1 a2 a3 a4 a5 a6
      refine hh rows _ ω ?_ ?_ ?_ a3 (by rw [a1, i3]) (by rw [a2, i4])
      · rw [a4, i1]; rfl
      · rw [a5, i1]; rfl
      · rw [a6, i1]
    · rintro m g el ω m' ⟨i1, i2, i3, i4⟩ hl
      rw [hm.updatePm] at hl
      obtain ⟨k1, k2, k3, k4⟩ := netLearn_keeps hl
      exact ⟨k1.trans i1, k2.trans i2, k3.trans i3, k4.trans i4⟩
    · intro m ω _
      rw [hm.sample]
      rfl
    · rw [h3]; exact ⟨rfl, rfl, rfl, rfl⟩

/-- The operators of the hill climbing for each class of networks. -/
def BnType.ops : BnType → Option (List String)
  | .gaussian => none
  | .semiparametric => some ["arcs", "node_type"]
  | .kde => some ["arcs"]

/-- The archive-based algorithms only search in the way of their network class. -/
theorem archEda_search {kind : BnType} (hk : kind ≠ .gaussian) {l : Num K}
    {e : Eda (List K) (Arch S L K) (Draws K)} {a : Arch S L K}
    (h : archEda kind fl lib name l cfg = .ok (e, a))
    (hh : ∀ rows args ω, args.bnType = none →
      args.start = some (lib.new kind ((List.range cfg.base.nVars).map name)) →
      args.operators = kind.ops → args.numFolds = 10 → args.whitelist = cfg.white.getD [] → args.blacklist = cfg.black.getD [] →
      hc' ⟨(List.range cfg.base.nVars).map name, rows⟩ args ω =
        lib.hc ⟨(List.range cfg.base.nVars).map name, rows⟩ args ω) :
    ∃ e', archEda kind fl { lib with hc := hc' } name l cfg = .ok (e', a) ∧
      ∀ (env : Env C) (f : ℕ → List K → C) (ftol : C) (ρ : Rand (Draws K)),
        minimize env e' f ftol a ρ = minimize env e f ftol a ρ := by
  obtain ⟨h1, ⟨u, hu⟩, h3⟩ := archEda_ok h
  refine ⟨{ e with
    updatePm := fun a _ el ω =>
      a.update { lib with hc := hc' } (archLen fl l cfg.base.sizeGen cfg.base.alpha) el ω
    sample := fun a ω => a.net.sample { lib with hc := hc' } cfg.base.sizeGen ω }, ?_, ?_⟩
  · unfold archEda mkEda
    unfold mkEda at h1
    rw [mkEda_swap h1]
    simp only
    rw [hu, h3]
    rfl
  · intro env f ftol ρ
    have hm := mkEda_ok h1
    refine minimize_congr (Inv := fun m => m.net.kind = kind ∧
      m.net.vars = (List.range cfg.base.nVars).map name ∧ m.net.white = cfg.white ∧
      m.net.black = cfg.black) ?_ ?_ ?_ ?_
    · rintro m g el ω ⟨i1, i2, i3, i4⟩
      rw [hm.updatePm]
      simp only
      unfold Arch.update
      cases updateArchive (archLen fl l cfg.base.sizeGen cfg.base.alpha) m.archive el with
      | error err => rfl
      | ok arch =>
        simp only
        rw [netLearn_congr]
        intro rows
        obtain ⟨a1, a2, a3, a4, a5, a6⟩ :=
          hcArgs_fields m.net.kind (lib.new m.net.kind m.net.vars) m.net.white m.net.black
        rw [i2]
        rw [i2] at a1 a2 a3 a4 a5 a6
        refine hh rows _ ω ?_ ?_ ?_ a3 (by rw [a1, i3]) (by rw [a2, i4])
        · rw [a4, i1, if_neg hk]
        · rw [a5, i1, if_neg hk]
        · rw [a6, i1]; cases kind <;> rfl
    · rintro m g el ω m' ⟨i1, i2, i3, i4⟩ hl
      rw [hm.updatePm] at hl
      simp only at hl
      unfold Arch.update at hl
      split at hl
      · cases hl
      split at hl
      · cases hl
      rename_i net hnet
      obtain rfl := Except.ok.inj hl
      obtain ⟨k1, k2, k3, k4⟩ := netLearn_keeps hnet
      exact ⟨k1.trans i1, k2.trans i2, k3.trans i3, k4.trans i4⟩
    · intro m ω _
      rw [hm.sample]
      rfl
    · rw [h3]; exact ⟨rfl, rfl, rfl, rfl⟩

/-- **C72** (`SPEDA`): hill climbing from the empty semiparametric network, changing arcs and types of
nodes, with the given lists and 10 folds. -/
theorem C72_SPEDA {l : Num K} {e : Eda (List K) (Arch S L K) (Draws K)} {a : Arch S L K}
    (h : SPEDA fl lib name l cfg = .ok (e, a))
    (hh : ∀ rows args ω, args.bnType = none →
      args.start = some (lib.new .semiparametric ((List.range cfg.base.nVars).map name)) →
      args.operators = some ["arcs", "node_type"] → args.numFolds = 10 →
      args.whitelist = cfg.white.getD [] → args.blacklist = cfg.black.getD [] →
      hc' ⟨(List.range cfg.base.nVars).map name, rows⟩ args ω =
        lib.hc ⟨(List.range cfg.base.nVars).map name, rows⟩ args ω) :
    ∃ e', SPEDA fl { lib with hc := hc' } name l cfg = .ok (e', a) ∧
      ∀ (env : Env C) (f : ℕ → List K → C) (ftol : C) (ρ : Rand (Draws K)),
        minimize env e' f ftol a ρ = minimize env e f ftol a ρ :=
  archEda_search (by decide) h hh

/-- **C72** (`MultivariateKEDA`): hill climbing from the empty KDE network, changing arcs, with the given
lists and 10 folds. -/
theorem C72_MultivariateKEDA {l : Num K} {e : Eda (List K) (Arch S L K) (Draws K)} {a : Arch S L K}
    (h : MultivariateKEDA fl lib name l cfg = .ok (e, a))
    (hh : ∀ rows args ω, args.bnType = none →
      args.start = some (lib.new .kde ((List.range cfg.base.nVars).map name)) →
      args.operators = some ["arcs"] → args.numFolds = 10 →
      args.whitelist = cfg.white.getD [] → args.blacklist = cfg.black.getD [] →
      hc' ⟨(List.range cfg.base.nVars).map name, rows⟩ args ω =
        lib.hc ⟨(List.range cfg.base.nVars).map name, rows⟩ args ω) :
    ∃ e', MultivariateKEDA fl { lib with hc := hc' } name l cfg = .ok (e', a) ∧
      ∀ (env : Env C) (f : ℕ → List K → C) (ftol : C) (ρ : Rand (Draws K)),
        minimize env e' f ftol a ρ = minimize env e f ftol a ρ :=
  archEda_search (by decide) h hh

end search

section scores

variable {P α K : Type} [Field K] [LinearOrder K] [FloorRing K] {fl : K → K}
  {lib : PgmLib P ℕ (Cat α) (Draws K)} {cfg : CatCfg α K}
  {search' : Frame ℕ (Cat α) → String → Draws K → Except PyErr (List (ℕ × ℕ))}

/-- **C72** (`EBNA`): the structure is searched with the BIC score only. -/
theorem C72_EBNA (hh : ∀ data ω, search' data "bicscore" ω = lib.search data "bicscore" ω) :
    EBNA fl { lib with search := search' }.toBNLib cfg = EBNA fl lib.toBNLib cfg := by
  unfold EBNA bnEda PgmLib.toBNLib DBN.learn DBN.sample
  simp only [hh]

/-- **C72** (`BOA`): the structure is searched with the BDeu score only. -/
theorem C72_BOA (hh : ∀ data ω, search' data "bdeuscore" ω = lib.search data "bdeuscore" ω) :
    BOA fl { lib with search := search' }.toBNLib cfg = BOA fl lib.toBNLib cfg := by
  unfold BOA bnEda PgmLib.toBNLib DBN.learn DBN.sample
  simp only [hh]

end scores

/-! ### Concrete cases -/

namespace Ex

/-- A library for two variables; the simulated values are the draws.  With `sw` it lists the columns in the
other order. -/
def colLib (sw : Bool) : NetLib Unit ℕ ℚ (Draws ℚ) where
  new _ _ := ()
  hc _ _ _ := .ok ()
  fit _ _ := .ok ()
  sample _ n ω := .ok
    { cols := if sw then [1, 0] else [0, 1]
      rows := (List.range n.toNat).map (fun i => if sw then [ω i 1, ω i 0] else [ω i 0, ω i 1]) }
  arcs _ := []
  topSort _ := [0, 1]
  cpd _ _ := ⟨[], [0], 1⟩

theorem colLib_table (sw : Bool) (pm : Unit) (n : ℤ) (ω : Draws ℚ) :
    ∃ d, (colLib sw).sample pm n ω = .ok d ∧ Table d ∧ d.rows.length = n.toNat ∧
      (∀ l, l ∈ d.cols ↔ l < 2) ∧ ∀ i l x, ValueAt d i l x ↔ i < n.toNat ∧ l < 2 ∧ x = ω i l := by
  refine ⟨_, rfl, ⟨by cases sw <;> simp, ?_⟩, by simp, ?_, ?_⟩
  · intro r hr
    obtain ⟨i, _, rfl⟩ := List.mem_map.1 hr
    cases sw <;> rfl
  · intro l
    cases sw <;> simp <;> omega
  · intro i l x
    unfold ValueAt
    constructor
    · rintro ⟨k, r, hk, hr, hx⟩
      have hi : i < n.toNat := by
        have := (List.getElem?_eq_some_iff.1 hr).1
        simpa using this
      simp only [List.getElem?_map, List.getElem?_range hi, Option.map_some, Option.some.injEq] at hr
      subst hr
      have hk2 : k = 0 ∨ k = 1 := by
        have := (List.getElem?_eq_some_iff.1 hk).1
        cases sw <;> simp at this <;> omega
      rcases hk2 with rfl | rfl <;> cases sw <;> simp at hk hx <;> subst hk <;>
        exact ⟨hi, by omega, hx.symm⟩
    · rintro ⟨hi, hl, rfl⟩
      have hl2 : l = 0 ∨ l = 1 := by omega
      rcases hl2 with rfl | rfl <;> cases sw
      · exact ⟨0, _, rfl, by simp [List.getElem?_range hi]; rfl, rfl⟩
      · exact ⟨1, _, rfl, by simp [List.getElem?_range hi]; rfl, rfl⟩
      · exact ⟨1, _, rfl, by simp [List.getElem?_range hi]; rfl, rfl⟩
      · exact ⟨0, _, rfl, by simp [List.getElem?_range hi]; rfl, rfl⟩

theorem colLib_same (pm : Unit) (n : ℤ) (ω : Draws ℚ) :
    Agree SameTable ((colLib false).sample pm n ω) ((colLib true).sample pm n ω) := by
  obtain ⟨d, h1, h2, h3, h4, h5⟩ := colLib_table false pm n ω
  obtain ⟨d', h1', h2', h3', h4', h5'⟩ := colLib_table true pm n ω
  rw [h1, h1']
  exact ⟨h2, h2', h3.trans h3'.symm, fun l => (h4 l).trans (h4' l).symm,
    fun i l x => (h5 i l x).trans (h5' i l x).symm⟩

/-- `SPEDA` does the same with both libraries. -/
example (cfg : NetCfg ℚ ℕ) : SPEDA id (colLib true) id (.int 2) cfg = SPEDA id (colLib false) id (.int 2) cfg :=
  ((C71_column_order (lib := colLib false) (fl := id) (name := id) (cfg := cfg)
    (s' := (colLib true).sample) colLib_same).2 (.int 2)).1

/-- Variable 0 is in column 0 although the library puts it last. -/
example : ((BNet.new (colLib true) .gaussian [0, 1] none none : BNet Unit ℕ ℚ).sample (colLib true) 1
    (fun _ l => if l = 0 then 5 else 7)).toOption.map (fun g => g.rows) = some [[5, 7]] := by
  decide +kernel

/-- A library for discrete networks that satisfies all assumptions: the search returns the arc `0 → 1` (or
nothing, for another score), the parameters are the data, and simulation repeats the data. -/
noncomputable def pgm : PgmLib (ℕ × (ℕ → ℕ → Option (Cat ℕ))) ℕ (Cat ℕ) (Draws ℚ) where
  search d score _ := .ok (if score = "bicscore" ∧ 0 ∈ d.cols ∧ 1 ∈ d.cols then [(0, 1)] else [])
  fit _ _ d := open Classical in
    if Table d then .ok (d.rows.length, fun i l => if l ∈ d.cols then cell d i l else none)
    else .error .valueError
  simulate net n _ := open Classical in
    match net.params with
    | none => .error .valueError
    | some p =>
      if net.nodes.Nodup ∧ 0 < p.1 ∧ ∀ i < p.1, ∀ l ∈ net.nodes, ∃ x, p.2 i l = some x then
        .ok (.object, { cols := net.nodes
                        rows := (List.range n.toNat).map (fun i => net.nodes.filterMap (p.2 (i % p.1))) })
      else .error .valueError

theorem pgm_dags : FindsDags pgm := by
  intro data score ω arcs h
  obtain rfl := Except.ok.inj h
  split
  · rename_i hc
    refine ⟨⟨id, by simp⟩, by simp, ?_⟩
    intro a ha
    obtain rfl := List.mem_singleton.1 ha
    exact hc.2
  · exact ⟨⟨id, by simp⟩, by simp, by simp⟩

/-- The simulated table. -/
theorem pgm_simulated {net : PgmNet (ℕ × (ℕ → ℕ → Option (Cat ℕ))) ℕ} {n : ℤ} {ω : Draws ℚ} {dt : DType}
    {d : Frame ℕ (Cat ℕ)} (h : pgm.simulate net n ω = .ok (dt, d)) : ∃ p, net.params = some p ∧ 0 < p.1 ∧
      Table d ∧ d.cols = net.nodes ∧ d.rows.length = n.toNat ∧
      ∀ i l x, ValueAt d i l x ↔ i < n.toNat ∧ l ∈ net.nodes ∧ p.2 (i % p.1) l = some x := by
  simp only [pgm] at h
  split at h
  · cases h
  rename_i p hp
  split at h
  · rename_i hc
    obtain ⟨hn, h0, hs⟩ := hc
    cases h
    have hfm : ∀ i, (net.nodes.filterMap (p.2 (i % p.1))).length = net.nodes.length ∧
        ∀ j : ℕ, (net.nodes.filterMap (p.2 (i % p.1)))[j]? = net.nodes[j]?.bind (p.2 (i % p.1)) :=
      fun i => filterMap_all (hs _ (Nat.mod_lt _ h0))
    refine ⟨p, hp, h0, ⟨hn, ?_⟩, rfl, by simp, ?_⟩
    · intro r hr
      obtain ⟨i, _, rfl⟩ := List.mem_map.1 hr
      exact (hfm i).1
    · intro i l x
      constructor
      · rintro ⟨k, r, hk, hr, hx⟩
        have hi : i < n.toNat := by
          have := (List.getElem?_eq_some_iff.1 hr).1
          simpa using this
        simp only [List.getElem?_map, List.getElem?_range hi, Option.map_some, Option.some.injEq] at hr
        subst hr
        rw [(hfm i).2, hk, Option.bind_some] at hx
        exact ⟨hi, List.mem_of_getElem? hk, hx⟩
      · rintro ⟨hi, hl, hx⟩
        refine ⟨net.nodes.idxOf l, net.nodes.filterMap (p.2 (i % p.1)), List.getElem?_idxOf hl, ?_, ?_⟩
        · simp [List.getElem?_range hi]
        · rw [(hfm i).2, List.getElem?_idxOf hl, Option.bind_some, hx]
  · cases h

theorem pgm_seen : OnlySeen pgm := by
  intro nodes arcs data p size ω dt d hf hs
  obtain ⟨p', hp', h0, ht, hc, _, hv⟩ := pgm_simulated hs
  obtain rfl := Option.some.inj hp'
  refine ⟨ht, ?_⟩
  intro l hl i x hx
  have h1 := ((hv i l x).1 hx).2.2
  simp only [pgm] at hf
  split at hf
  · rename_i htd
    obtain rfl := Except.ok.inj hf
    simp only [hl, if_true] at h1
    exact ⟨_, (cell_iff htd hl).1 h1⟩
  · cases hf

theorem pgm_byLabel : ByLabel pgm where
  search := by
    intro d d' score ω h
    simp only [pgm, h.labels]
  fit := by
    intro nodes nodes' arcs d d' h _
    simp only [pgm]
    rw [if_pos h.left, if_pos h.right, h.rows]
    congr 2
    funext i l
    by_cases hl : l ∈ d.cols
    · rw [if_pos hl, if_pos ((h.labels l).1 hl), cell_same h hl]
    · rw [if_neg hl, if_neg (fun hh => hl ((h.labels l).2 hh))]
  simulate := by
    intro net net' size ω h
    have herr : ∀ net err, pgm.simulate net size ω = .error err → err = .valueError := by
      intro net err he
      simp only [pgm] at he
      split at he
      · cases he; rfl
      · split at he <;> cases he; rfl
    have hiff : ∀ net net' : PgmNet (ℕ × (ℕ → ℕ → Option (Cat ℕ))) ℕ, SameNet net net' → ∀ x,
        pgm.simulate net size ω = .ok x → ∃ y, pgm.simulate net' size ω = .ok y := by
      intro net net' h x hx
      simp only [pgm] at hx ⊢
      rw [← h.params]
      split at hx
      · cases hx
      · rename_i p hp
        split at hx
        · rename_i hc
          rw [if_pos ⟨h.nodes.nodup_iff.1 hc.1, hc.2.1,
            fun i hi l hl => hc.2.2 i hi l (h.nodes.mem_iff.2 hl)⟩]
          exact ⟨_, rfl⟩
        · cases hx
    rcases hx : pgm.simulate net size ω with err | ⟨dt, d⟩ <;>
      rcases hy : pgm.simulate net' size ω with err' | ⟨dt', d'⟩
    · exact (herr _ _ hx).trans (herr _ _ hy).symm
    · obtain ⟨y, hy'⟩ := hiff net' net ⟨h.nodes.symm, h.arcs.symm, h.params.symm⟩ _ hy
      rw [hx] at hy'; cases hy'
    · obtain ⟨y, hy'⟩ := hiff net net' h _ hx
      rw [hy] at hy'; cases hy'
    · obtain ⟨p, hp, _, ht, hc, hlen, hv⟩ := pgm_simulated hx
      obtain ⟨p', hp', _, ht', hc', hlen', hv'⟩ := pgm_simulated hy
      have hpp : p = p' := by
        have := h.params
        rw [hp, hp'] at this
        exact Option.some.inj this
      subst hpp
      have hdt : dt = dt' := by
        have : ∀ {net dt d}, pgm.simulate net size ω = .ok (dt, d) → dt = .object := by
          intro net dt d he
          simp only [pgm] at he
          split at he
          · cases he
          · split at he <;> cases he; rfl
        rw [this hx, this hy]
      refine ⟨hdt, ht, ht', hlen.trans hlen'.symm, ?_, ?_⟩
      · intro l
        simp only [hc, hc']
        exact h.nodes.mem_iff
      · intro i l x
        rw [hv, hv', h.nodes.mem_iff]

/-- With this library every individual of an `EBNA` run has declared values (C56). -/
example {ρ : Rand (Draws ℚ)} {e b} (h : EBNA id pgm.toBNLib catCfg = .ok (e, b)) (hi : Unit01 ρ.init)
    (hω : ∀ t, Unit01 (ρ.sample t)) {res s} (hrun : minimize env e catCost 0 b ρ = .ok (res, s)) :
    ∀ p ∈ s.log.flatten, p.1.length = 2 ∧ ∀ (j : ℕ) v, p.1[j]? = some v → catCfg.Declared j v :=
  C56_values_declared (pgm_sound pgm_dags pgm_seen) env_valid h (by intro d hd; cases hd) hi hω hrun

/-- `learn` on two columns finds the arc with the BIC score, and forgets it with another score. -/
theorem pgm_learn (g : Gen (List (Cat ℕ))) (hg : g.cols = 2) (ht : Table (⟨[0, 1], g.rows⟩ : Frame ℕ (Cat ℕ)))
    (b : DBN (ℕ × (ℕ → ℕ → Option (Cat ℕ))) ℕ) (hb : b.vars = [0, 1]) (ω : Draws ℚ) :
    (∃ b', b.learn pgm g "bicscore" ω = .ok b' ∧ b'.printStructure = [(0, 1)]) ∧
    ∃ b', b.learn pgm g "bdeuscore" ω = .ok b' ∧ b'.printStructure = [] := by
  have hn : b.vars.Nodup := by rw [hb]; decide
  have key : ∀ score, ∃ b', b.learn pgm g score ω = .ok b' ∧
      b'.printStructure = if score = "bicscore" then [(0, 1)] else [] := by
    intro score
    rw [dbn_learn pgm_dags hn, if_pos (by rw [hg, hb]; rfl), hb]
    simp only [pgm, if_pos ht]
    exact ⟨_, rfl, by simp [DBN.printStructure]⟩
  exact ⟨by simpa using key "bicscore", by simpa using key "bdeuscore"⟩

theorem two_columns {x y : Cat ℕ} : SameTable (⟨[0, 1], [[x, y]]⟩ : Frame ℕ (Cat ℕ)) ⟨[1, 0], [[y, x]]⟩ := by
  have key : ∀ (cols : List ℕ) (r : List (Cat ℕ)) i l v, ValueAt ⟨cols, [r]⟩ i l v ↔
      i = 0 ∧ ∃ k : ℕ, cols[k]? = some l ∧ r[k]? = some v := by
    intro cols r i l v
    constructor
    · rintro ⟨k, r', hk, hr, hx⟩
      cases i with
      | zero =>
        simp only [List.getElem?_cons_zero, Option.some.injEq] at hr
        subst hr
        exact ⟨rfl, k, hk, hx⟩
      | succ i => simp at hr
    · rintro ⟨rfl, k, hk, hx⟩
      exact ⟨k, r, hk, rfl, hx⟩
  refine ⟨⟨by simp, by simp⟩, ⟨by simp, by simp⟩, rfl, by intro l; simp [or_comm], ?_⟩
  intro i l v
  rw [key, key]
  refine and_congr_right (fun _ => ?_)
  constructor
  · rintro ⟨k, hk, hx⟩
    match k, hk, hx with
    | 0, hk, hx => exact ⟨1, hk, hx⟩
    | 1, hk, hx => exact ⟨0, hk, hx⟩
    | k + 2, hk, hx => simp at hk
  · rintro ⟨k, hk, hx⟩
    match k, hk, hx with
    | 0, hk, hx => exact ⟨1, hk, hx⟩
    | 1, hk, hx => exact ⟨0, hk, hx⟩
    | k + 2, hk, hx => simp at hk

/-- Both orders of two columns (C71). -/
example (ω : Draws ℚ) := C71_BN_reorder pgm_byLabel pgm_dags (b := DBN.new [0, 1]) (b' := DBN.new [1, 0])
  (g := { dt := .object, cols := 2, rows := [[.str 5, .str 7]] })
  (g' := { dt := .object, cols := 2, rows := [[.str 7, .str 5]] })
  (by decide) (by decide) two_columns rfl rfl "bicscore" ω

/-- The library with one score broken. -/
noncomputable def badScore (s₀ : String) : PgmLib (ℕ × (ℕ → ℕ → Option (Cat ℕ))) ℕ (Cat ℕ) (Draws ℚ) :=
  { pgm with search := fun d s ω => if s = s₀ then .error .valueError else pgm.search d s ω }

/-- The search of `alib`, which fails unless the arguments satisfy `ok`. -/
def fussyHc (ok : HcArgs (List (List ℚ)) ℕ → Bool) :
    Frame ℕ ℚ → HcArgs (List (List ℚ)) ℕ → Draws ℚ → Except PyErr (List (List ℚ)) :=
  fun d args ω => if ok args then alib.hc d args ω else .error .valueError

/-- `EBNA` does not notice that the BDeu score is broken, `BOA` not that the BIC score is (C72). -/
example : EBNA id (badScore "bdeuscore").toBNLib catCfg = EBNA id pgm.toBNLib catCfg ∧
    BOA id (badScore "bicscore").toBNLib catCfg = BOA id pgm.toBNLib catCfg :=
  ⟨C72_EBNA (fun _ _ => by simp), C72_BOA (fun _ _ => by simp)⟩

/-- `EGNA`, `SPEDA` and `MultivariateKEDA` do not notice that every other kind of search is broken. -/
example : ∃ e b e', EGNA id alib id acfg = .ok (e, b) ∧
    EGNA id { alib with hc := fussyHc fun a => a.bnType == some .gaussian } id acfg = .ok (e', b) ∧
    ∀ (f : ℕ → List ℚ → ℚ) (ρ : Rand (Draws ℚ)), minimize env e' f 0 b ρ = minimize env e f 0 b ρ := by
  have hok : (EGNA id alib id acfg).toOption.isSome = true := by decide +kernel
  obtain ⟨⟨e, b⟩, h⟩ := ok_of_isSome hok
  obtain ⟨e', h1, h2⟩ := C72_EGNA (C := ℚ) (hc' := fussyHc fun a => a.bnType == some .gaussian) h
    (fun rows args ω ha _ _ _ _ _ => by simp [fussyHc, ha])
  exact ⟨e, b, e', h, h1, fun f ρ => h2 env f 0 ρ⟩

example : ∃ e a e', SPEDA id alib id (.int 2) acfg = .ok (e, a) ∧
    SPEDA id { alib with hc := fussyHc fun a => a.operators == some ["arcs", "node_type"] } id (.int 2) acfg =
      .ok (e', a) ∧
    ∀ (f : ℕ → List ℚ → ℚ) (ρ : Rand (Draws ℚ)), minimize env e' f 0 a ρ = minimize env e f 0 a ρ := by
  have hok : (SPEDA id alib id (.int 2) acfg).toOption.isSome = true := by decide +kernel
  obtain ⟨⟨e, a⟩, h⟩ := ok_of_isSome hok
  obtain ⟨e', h1, h2⟩ := C72_SPEDA (C := ℚ)
    (hc' := fussyHc fun a => a.operators == some ["arcs", "node_type"]) h
    (fun rows args ω _ _ ha _ _ _ => by simp [fussyHc, ha])
  exact ⟨e, a, e', h, h1, fun f ρ => h2 env f 0 ρ⟩

example : ∃ e a e', MultivariateKEDA id alib id (.int 2) acfg = .ok (e, a) ∧
    MultivariateKEDA id { alib with hc := fussyHc fun a => a.operators == some ["arcs"] } id (.int 2) acfg =
      .ok (e', a) ∧
    ∀ (f : ℕ → List ℚ → ℚ) (ρ : Rand (Draws ℚ)), minimize env e' f 0 a ρ = minimize env e f 0 a ρ := by
  have hok : (MultivariateKEDA id alib id (.int 2) acfg).toOption.isSome = true := by decide +kernel
  obtain ⟨⟨e, a⟩, h⟩ := ok_of_isSome hok
  obtain ⟨e', h1, h2⟩ := C72_MultivariateKEDA (C := ℚ)
    (hc' := fussyHc fun a => a.operators == some ["arcs"]) h
    (fun rows args ω _ _ ha _ _ _ => by simp [fussyHc, ha])
  exact ⟨e, a, e', h, h1, fun f ρ => h2 env f 0 ρ⟩

end Ex

end Verif
