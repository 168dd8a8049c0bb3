import Verif.Learn.Lemmas5
import Verif.Learn.Lemmas9

/-!
# The invariant of the learner
-/

namespace Verif.Learn

open Trees

variable {D : Type}

/-! ## Segments of the index array -/

theorem slice_getElem? (l : List ℕ) (a b i : ℕ) :
    (slice l a b)[i]? = if a + i < b then l[a + i]? else none := by
  unfold slice
  rw [List.getElem?_drop, List.getElem?_take]

theorem slice_length {l : List ℕ} {a b : ℕ} (hb : b ≤ l.length) : (slice l a b).length = b - a := by
  unfold slice
  simp
  omega

/-- The index array with a segment replaced. -/
def replace (l r : List ℕ) (a b : ℕ) : List ℕ := l.take a ++ r ++ l.drop b

theorem replace_length {l r : List ℕ} {a b : ℕ} (hab : a ≤ b) (hb : b ≤ l.length)
    (hr : r.length = b - a) : (replace l r a b).length = l.length := by
  unfold replace
  simp
  omega

theorem replace_getElem? {l r : List ℕ} {a b : ℕ} (hab : a ≤ b) (hb : b ≤ l.length)
    (hr : r.length = b - a) (k : ℕ) :
    (replace l r a b)[k]? = if k < a then l[k]? else if k < b then r[k - a]? else l[k]? := by
  unfold replace
  have hta : (l.take a).length = a := by simp; omega
  by_cases h1 : k < a
  · rw [if_pos h1, List.append_assoc, List.getElem?_append_left (by omega), List.getElem?_take,
      if_pos h1]
  · rw [if_neg h1, List.append_assoc, List.getElem?_append_right (by omega), hta]
    by_cases h2 : k < b
    · rw [if_pos h2, List.getElem?_append_left (by omega)]
    · rw [if_neg h2, List.getElem?_append_right (by omega), List.getElem?_drop]
      congr 1
      omega

theorem slice_replace_left {l r : List ℕ} {a b k : ℕ} (hab : a ≤ b) (hb : b ≤ l.length)
    (hr : r.length = b - a) (hk : a + k ≤ b) : slice (replace l r a b) a (a + k) = r.take k := by
  apply List.ext_getElem?
  intro i
  rw [slice_getElem?, replace_getElem? hab hb hr, List.getElem?_take]
  by_cases hi : i < k
  · rw [if_pos (by omega), if_neg (by omega), if_pos (by omega), if_pos hi]
    congr 1
    omega
  · rw [if_neg (by omega), if_neg hi]

theorem slice_replace_right {l r : List ℕ} {a b k : ℕ} (hab : a ≤ b) (hb : b ≤ l.length)
    (hr : r.length = b - a) : slice (replace l r a b) (a + k) b = r.drop k := by
  apply List.ext_getElem?
  intro i
  rw [slice_getElem?, replace_getElem? hab hb hr, List.getElem?_drop]
  by_cases hi : a + k + i < b
  · rw [if_pos hi, if_neg (by omega), if_pos (by omega)]
    congr 1
    omega
  · rw [if_neg hi, List.getElem?_eq_none (by omega)]

theorem slice_replace {l r : List ℕ} {a b : ℕ} (hab : a ≤ b) (hb : b ≤ l.length)
    (hr : r.length = b - a) : slice (replace l r a b) a b = r := by
  have := slice_replace_right (k := 0) hab hb hr
  simpa using this

theorem slice_replace_other {l r : List ℕ} {a b c d : ℕ} (hab : a ≤ b) (hb : b ≤ l.length)
    (hr : r.length = b - a) (h : d ≤ a ∨ b ≤ c) :
    slice (replace l r a b) c d = slice l c d := by
  apply List.ext_getElem?
  intro i
  rw [slice_getElem?, slice_getElem?, replace_getElem? hab hb hr]
  by_cases hi : c + i < d
  · rw [if_pos hi, if_pos hi]
    rcases h with h | h
    · rw [if_pos (by omega)]
    · rw [if_neg (by omega), if_neg (by omega)]
  · rw [if_neg hi, if_neg hi]

/-! ## The invariant -/

/-- Intervals on the path end or begin at the mean of two cells of the table, which is no value in the rows. -/
def Cut (data : Data) (total : ℕ) (rows : List ℕ) (path : Path) : Prop :=
  ∀ e ∈ path, ∀ I, e.2 = .num I → ∃ s, (I = ⟨.ninf, .fin s, .exc, .exc⟩ ∨ I = ⟨.fin s, .pinf, .inc, .exc⟩) ∧
    (∃ r r', r < total ∧ r' < total ∧ s = (data r e.1 + data r' e.1) / 2) ∧ ∀ r ∈ rows, data r e.1 ≠ s

theorem Cut.mono {data : Data} {total : ℕ} {rows rows' : List ℕ} {path : Path} (h : Cut data total rows path)
    (hs : ∀ r ∈ rows', r ∈ rows) : Cut data total rows' path := by
  intro e he I hI
  obtain ⟨s, h1, h2, h3⟩ := h e he I hI
  exact ⟨s, h1, h2, fun r hr => h3 r (hs r hr)⟩

theorem Cut.snoc {data : Data} {total : ℕ} {rows rows' : List ℕ} {path : Path} (h : Cut data total rows path)
    (hs : ∀ r ∈ rows', r ∈ rows) (ht : ∀ r ∈ rows, r < total) {v : ℕ} {A : Region} {rs : List ℕ} (hr : ∀ r, r ∈ rs ↔ r ∈ rows)
    (hA : ∀ I, A = .num I → Threshold data rs v I) : Cut data total rows' (path ++ [(v, A)]) := by
  intro e he I hI
  rcases List.mem_append.1 he with he | he
  · exact h.mono hs e he I hI
  · rw [List.mem_singleton.1 he] at hI ⊢
    obtain ⟨s, h1, ⟨r, m, r', m', e⟩, h3⟩ := hA I hI
    exact ⟨s, h1, ⟨r, r', ht r ((hr r).1 m), ht r' ((hr r').1 m'), e⟩, fun x hx => h3 x ((hr x).2 (hs x hx))⟩

/-- What a finished leaf satisfies. -/
structure LeafOK (c : Cfg) (data : Data) (total : ℕ) (fit : List ℕ → ℕ → D) (l : Leaf D) : Prop where
  samples : l.samples = l.rows.length
  prior : l.prior = (l.rows.length : ℚ) / (total : ℚ)
  dists : l.dists = (List.range c.vars.length).map (fit l.rows)
  nonempty : l.rows ≠ []
  sat : ∀ r ∈ l.rows, Sat l.path (data r)
  depth : ∀ m, c.maxDepth = some m → l.path.length ≤ m
  enough : Respects c → l.parent = none ∨ c.minSamples ≤ (l.rows.length : ℚ)
  regions : ∀ e ∈ l.path, RegOK c e.1 e.2
  cut : Cut data total l.rows l.path
  stop : Respects c → (∀ v ∈ c.features, ∀ t ∈ c.numT ++ c.symT, t ∈ c.deps v) →
    (∃ m, c.maxDepth = some m ∧ m ≤ l.path.length) ∨
    ∀ v L R, Division c data v l.rows L R → c.minSamples ≤ (L.length : ℚ) →
      c.minSamples ≤ (R.length : ℚ) → improvement c data v l.rows L R < c.minImp

/-- What a waiting queue item satisfies. -/
structure ItemOK (c : Cfg) (data : Data) (total : ℕ) (h : Heap D) (indices : List ℕ) (it : Item) :
    Prop where
  seg : it.start < it.stop ∧ it.stop ≤ total
  slot : SlotFree h it
  sat : ∀ r ∈ slice indices it.start it.stop, Sat (itemPath h it) (data r)
  depth : it.depth = (itemPath h it).length
  limit : ∀ m, c.maxDepth = some m → it.depth ≤ m
  enough : Respects c → it.parent = none ∨ c.minSamples ≤ ((it.stop - it.start : ℕ) : ℚ)
  regions : ∀ e ∈ itemPath h it, RegOK c e.1 e.2
  cut : Cut data total (slice indices it.start it.stop) (itemPath h it)

structure LInv (c : Cfg) (data : Data) (total : ℕ) (fit : List ℕ → ℕ → D) (st : LSt D) : Prop where
  len : st.indices.length = total
  fresh : Fresh st.heap
  shape : Shape st.heap
  leaf : ∀ e ∈ st.heap.leaves, LeafOK c data total fit e.2
  item : ∀ it ∈ st.queue, ItemOK c data total st.heap st.indices it
  disj : st.queue.Pairwise (fun a b => a.stop ≤ b.start ∨ b.stop ≤ a.start)
  slots : st.queue.Pairwise DiffSlot
  rows : (st.heap.leaves.flatMap (fun e => e.2.rows) ++
    st.queue.flatMap (fun it => slice st.indices it.start it.stop)).Perm (List.range total)
  cover : ∀ x, Valid c x → (st.heap.leaves.map (fun e => e.2.path) ++
    st.queue.map (itemPath st.heap)).countP (fun p => decide (Sat p x)) = 1
  regions : ∀ k n, st.heap.inner.lookup k = some n → ∀ s ∈ n.splits, RegOK c n.var s
  complete : ∀ (k : ℕ) (n : Inner) (i : ℕ), st.heap.inner.lookup k = some n →
    n.children[i]? = some none → ∃ it ∈ st.queue, it.parent = some k ∧ it.child = i
  first : ∀ it ∈ st.queue, it.parent = none → st.queue.length = 1
  binary : ∀ k n, st.heap.inner.lookup k = some n → n.children.length = 2

/-- The rounds a queue still takes. -/
def rounds (q : List Item) : ℕ := (q.map (fun it => 2 * (it.stop - it.start) - 1)).sum

theorem sat_append {p : Path} {e : ℕ × Region} {x : ℕ → ℚ} :
    Sat (p ++ [e]) x ↔ Sat p x ∧ e.2.Mem (.fin (x e.1)) := by
  unfold Sat
  constructor
  · intro h
    exact ⟨fun a ha => h a (by simp [ha]), h e (by simp)⟩
  · rintro ⟨h1, h2⟩ a ha
    rcases List.mem_append.1 ha with ha | ha
    · exact h1 a ha
    · rw [List.mem_singleton.1 ha]
      exact h2

theorem countP_split {p : Path} {v : ℕ} {A B : Region} {x : ℕ → ℚ}
    (h : A.Mem (.fin (x v)) ↔ ¬ B.Mem (.fin (x v))) :
    [p ++ [(v, A)], p ++ [(v, B)]].countP (fun p => decide (Sat p x))
      = [p].countP (fun p => decide (Sat p x)) := by
  simp only [List.countP_cons, List.countP_nil, sat_append, decide_eq_true_eq]
  by_cases hp : Sat p x <;> by_cases hA : A.Mem (.fin (x v))
  · have := h.1 hA
    simp [hp, hA, this]
  · have : B.Mem (.fin (x v)) := by
      by_contra hB
      exact hA (h.2 hB)
    simp [hp, hA, this]
  · simp [hp]
  · simp [hp]

theorem perm_step {L q s s1 : List ℕ} {total : ℕ}
    (h : (L ++ (s ++ q)).Perm (List.range total)) (hs : s1.Perm s) :
    (L ++ s1 ++ q).Perm (List.range total) := by
  refine List.Perm.trans ?_ h
  rw [List.append_assoc]
  exact (hs.append_right q).append_left L

theorem slices_eq {q : List Item} {l r : List ℕ} {a b : ℕ} (hab : a ≤ b) (hb : b ≤ l.length)
    (hr : r.length = b - a) (h : ∀ it ∈ q, b ≤ it.start ∨ it.stop ≤ a) :
    q.flatMap (fun it => slice (replace l r a b) it.start it.stop)
      = q.flatMap (fun it => slice l it.start it.stop) := by
  rw [List.flatMap_def, List.flatMap_def]
  congr 1
  apply List.map_congr_left
  intro it hit
  exact slice_replace_other hab hb hr (by have := h it hit; tauto)

theorem mem_slice_lt {c : Cfg} {data : Data} {total : ℕ} {fit : List ℕ → ℕ → D} {st : LSt D}
    (hI : LInv c data total fit st) {it : Item} (hit : it ∈ st.queue) {r : ℕ}
    (hr : r ∈ slice st.indices it.start it.stop) : r < total := by
  have : r ∈ List.range total := by
    rw [← hI.rows.mem_iff]
    refine List.mem_append_right _ (List.mem_flatMap.2 ⟨it, hit, hr⟩)
  simpa using this

theorem parent_ne_none {c : Cfg} {data : Data} {total : ℕ} {fit : List ℕ → ℕ → D} {h : Heap D}
    {idx : List ℕ} {it : Item} {q : List Item} (hI : LInv c data total fit ⟨h, idx, it :: q⟩) :
    ∀ o ∈ q, o.parent ≠ none := by
  intro o ho hp
  have := hI.first o (by simp [ho]) hp
  cases q with
  | nil => simp at ho
  | cons a q => simp at this

end Verif.Learn
