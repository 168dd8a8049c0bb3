import Verif.Trees.Json
import Verif.Learn.Spec

/-!
# Specification of the queries on trees
-/

namespace Verif.Trees

export Learn (NodeAt Shape)

variable {D : Type}

/-- A tree without missing children. -/
def Full (h : Heap D) : Prop := ∀ k n, h.inner.lookup k = some n → none ∉ n.children

/-- Every inner node has two children. -/
def Binary (h : Heap D) : Prop := ∀ k n, h.inner.lookup k = some n → n.children.length = 2

/-- The splits are intervals or sets of values, without degenerate intervals. -/
def SplitsOK (h : Heap D) : Prop := ∀ k n, h.inner.lookup k = some n → ∀ s ∈ n.splits, s.OK

/-- The query and each split on the path have a value in common, for every variable of the query. -/
def Compatible (q : Query) (path : Path) : Prop :=
  ∀ s ∈ path, ∀ r, q.lookup s.1 = some r → ∃ x, r.Mem x ∧ s.2.Mem x

end Verif.Trees

namespace Verif.Trees

/-- What the probabilities of distributions must satisfy: `P d r` is the probability of `r` under `d`.  `K` are the
kinds of variables; `ok k d` says that `d` is a distribution for variables of kind `k`, `fits k r` that `r` is a
set of values of such variables. -/
structure PLaws {D E K : Type} (o : DistOps D E) (ok : K → D → Prop) (fits : K → Region → Prop)
    (P : D → Region → ℚ) : Prop where
  p_ok : ∀ k d r, ok k d → fits k r → o.p d r = .ok (P d r)
  ext : ∀ k d r s, ok k d → fits k r → fits k s → (∀ x, r.Mem x ↔ s.Mem x) → P d r = P d s
  nonneg : ∀ k d r, ok k d → fits k r → 0 ≤ P d r
  le_one : ∀ k d r, ok k d → fits k r → P d r ≤ 1
  mono : ∀ k d r s, ok k d → fits k r → fits k s → (∀ x, r.Mem x → s.Mem x) → P d r ≤ P d s
  empty : ∀ k d r, ok k d → fits k r → (∀ x, ¬ r.Mem x) → P d r = 0
  inter : ∀ k r s, fits k r → fits k s → fits k (r.inter s)
  sure : ∀ k d r s, ok k d → fits k r → fits k s → P d s = 1 → P d (r.inter s) = P d r

/-- What distributions must satisfy for conditioning, merging and storing them. -/
structure Laws {D E K : Type} (o : DistOps D E) (ok : K → D → Prop) (fits : K → Region → Prop)
    (P : D → Region → ℚ) : Prop extends PLaws o ok fits P where
  crop : ∀ k d r, ok k d → fits k r → P d r ≠ 0 → ∃ d', o.crop d r = .ok d' ∧ ok k d' ∧
    ∀ s, fits k s → P d' s = P d (s.inter r) / P d r
  merge : ∀ k ds ws, ds ≠ [] → (∀ d ∈ ds, ok k d) → ws.length = ds.length → (∀ w ∈ ws, 0 ≤ w) →
    ws.sum = 1 → ∃ d', o.merge ds ws = .ok d' ∧ ok k d' ∧
      ∀ s, fits k s → P d' s = (List.zipWith (fun d w => w * P d s) ds ws).sum
  reload : ∀ k d, ok k d → o.reload d = .ok d

/-- The same, where conditioning and merging give the right distributions only for the kinds in `A`; distributions of
other kinds can be merged and stored, whatever the result is. -/
structure LawsOn {D E K : Type} (o : DistOps D E) (ok : K → D → Prop) (fits : K → Region → Prop)
    (P : D → Region → ℚ) (A : K → Prop) : Prop extends PLaws o ok fits P where
  crop : ∀ k d r, A k → ok k d → fits k r → P d r ≠ 0 → ∃ d', o.crop d r = .ok d' ∧ ok k d' ∧
    ∀ s, fits k s → P d' s = P d (s.inter r) / P d r
  merge : ∀ k ds ws, A k → ds ≠ [] → (∀ d ∈ ds, ok k d) → ws.length = ds.length → (∀ w ∈ ws, 0 ≤ w) →
    ws.sum = 1 → ∃ d', o.merge ds ws = .ok d' ∧ ok k d' ∧
      ∀ s, fits k s → P d' s = (List.zipWith (fun d w => w * P d s) ds ws).sum
  mergeable : ∀ k ds ws, ds ≠ [] → (∀ d ∈ ds, ok k d) → ws.length = ds.length → (∀ w ∈ ws, 0 ≤ w) →
    ws.sum = 1 → ∃ d', o.merge ds ws = .ok d' ∧ o.reload d' = .ok d'
  reload : ∀ k d, ok k d → o.reload d = .ok d

theorem Laws.on {D E K : Type} {o : DistOps D E} {ok : K → D → Prop} {fits : K → Region → Prop} {P : D → Region → ℚ}
    (L : Laws o ok fits P) : LawsOn o ok fits P (fun _ => True) where
  toPLaws := L.toPLaws
  crop := fun k d r _ => L.crop k d r
  merge := fun k ds ws _ => L.merge k ds ws
  mergeable := fun k ds ws h1 h2 h3 h4 h5 => by
    obtain ⟨d', h6, h7, -⟩ := L.merge k ds ws h1 h2 h3 h4 h5
    exact ⟨d', h6, L.reload k d' h7⟩
  reload := L.reload

instance {D E K : Type} {o : DistOps D E} {ok : K → D → Prop} {fits : K → Region → Prop} {P : D → Region → ℚ} :
    CoeOut (Laws o ok fits P) (PLaws o ok fits P) := ⟨Laws.toPLaws⟩

variable {D : Type}

/-- The probability of a query in a leaf: the variables are independent. -/
def leafProb (P : D → Region → ℚ) (l : Leaf D) (q : Query) : ℚ :=
  (q.map (fun i => match l.dists[i.1]? with
    | some d => P d i.2
    | none => 0)).prod

/-- The probability of a query in the tree: the mixture of the leaves. -/
def mass (P : D → Region → ℚ) (h : Heap D) (q : Query) : ℚ :=
  (h.leaves.map (fun l => l.2.prior * leafProb P l.2 q)).sum

/-- An item of a query, restricted by another query. -/
def meetItem (e : Query) (i : ℕ × Region) : ℕ × Region :=
  match e.lookup i.1 with
  | some r => (i.1, i.2.inter r)
  | none => i

/-- Both queries hold: variables that occur in both are restricted by both. -/
def meet (q e : Query) : Query :=
  q.map (meetItem e) ++ e.filter (fun i => !(q.map Prod.fst).contains i.1)

/-- The probability of a set of values of a variable in a leaf, given the evidence. -/
def condProb (P : D → Region → ℚ) (l : Leaf D) (e : Query) (v : ℕ) (S : Region) : ℚ :=
  match l.dists[v]? with
  | none => 0
  | some d => match e.lookup v with
    | none => P d S
    | some r => P d (S.inter r) / P d r

/-- A query: distinct variables of the tree, with sets of values of the right kind. -/
def QueryOK {K : Type} (fits : K → Region → Prop) (kind : ℕ → K) (n : ℕ) (q : Query) : Prop :=
  (q.map Prod.fst).Nodup ∧ ∀ i ∈ q, i.1 < n ∧ fits (kind i.1) i.2 ∧ i.2.OK

/-- A fitted tree over `n` variables whose leaves hold distributions on the values their paths
allow. -/
structure TreeOK {K : Type} (ok : K → D → Prop) (fits : K → Region → Prop) (P : D → Region → ℚ)
    (kind : ℕ → K) (full : ℕ → Region) (n : ℕ) (h : Heap D) : Prop where
  shape : Shape h
  noNone : Full h
  fitted : h.root ≠ none
  dists : ∀ e ∈ h.leaves, e.2.dists.length = n ∧ ∀ (v : ℕ) (d : D), e.2.dists[v]? = some d → ok (kind v) d
  prior : ∀ e ∈ h.leaves, 0 ≤ e.2.prior
  path : ∀ e ∈ h.leaves, ∀ s ∈ e.2.path, s.1 < n ∧ fits (kind s.1) s.2 ∧ s.2.OK
  values : ∀ v, v < n → fits (kind v) (full v) ∧ ∀ r x, fits (kind v) r → r.Mem x → (full v).Mem x
  support : ∀ e ∈ h.leaves, ∀ (v : ℕ) (d : D) (R : Region), (pathMap full e.2.path).lookup v = some R →
    e.2.dists[v]? = some d → P d R = 1

end Verif.Trees
