/-
What the archive of the archive-based algorithms should contain, independently of its code.
-/
import Verif.Model.Net

namespace Verif.Spec

variable {R C σ Ω : Type} [PyCost C]

/-- The last `k` elements of a list. -/
def lastN {α : Type} (k : ℕ) (l : List α) : List α := l.drop (l.length - k)

/-- `els` lists the elites selected in passes `1, …, t - 1` of the run: element `i` is the elite in
force at the head of pass `i + 2`. -/
def EliteSeq (env : Env C) (e : Eda R σ Ω) (f : ℕ → R → C) (ftol : C) (pm : σ) (ρ : Rand Ω) (t : ℕ)
    (els : List (Gen R)) : Prop :=
  els.length = t - 1 ∧
    ∀ i s, i + 2 ≤ t → Visited env e f ftol pm ρ (i + 2) s → els[i]? = some s.elite

/-- The network library simulates as many rows as requested. -/
def Sized {S L K Ω : Type} (lib : NetLib S L K Ω) : Prop :=
  ∀ pm n ω d, lib.sample pm n ω = .ok d → (d.rows.length : ℤ) = n

/-- The network library never fails on at least `q` rows of data for the variables `vars`: it finds a
structure, fits it, and simulates any number of rows containing all variables. -/
structure Works {S L K Ω : Type} (lib : NetLib S L K Ω) (vars : List L) (q : ℕ) : Prop where
  hc : ∀ data args ω, data.cols = vars → q ≤ data.rows.length → ∃ pm, lib.hc data args ω = .ok pm
  fit : ∀ pm data, data.cols = vars → q ≤ data.rows.length → ∃ pm', lib.fit pm data = .ok pm'
  sample : ∀ pm n ω, 0 ≤ n → ∃ d, lib.sample pm n ω = .ok d ∧ ∀ v ∈ vars, v ∈ d.cols
  sized : Sized lib

end Verif.Spec
