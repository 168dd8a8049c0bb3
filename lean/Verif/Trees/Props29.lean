import Verif.Trees.Pretty

/-!
# C135: the pretty-printed tree shows the tree

*`pfmt()` prints every node on a line of its own, in preorder, indented by four spaces for every level; two trees that are printed alike have
the same nodes in the same places.*
-/

namespace Verif.Pretty

/-- Depth and text of all nodes in preorder. -/
def Forest.preorder (depth : Nat) : Forest → List (Nat × List Char)
  | .nil => []
  | .node s c n => (depth, s) :: (c.preorder (depth + 1) ++ n.preorder depth)

/-- The texts of the nodes are single lines that do not begin with a space. -/
def Forest.Lines : Forest → Prop
  | .nil => True
  | .node s c n => '\n' ∉ s ∧ (∃ a r, s = a :: r ∧ a ≠ ' ') ∧ c.Lines ∧ n.Lines

theorem fmt_preorder : ∀ (f : Forest) (k : Nat),
    f.fmt (4 * k) = (f.preorder k).flatMap (fun p => List.replicate (4 * p.1) ' ' ++ p.2 ++ ['\n'])
  | .nil, k => rfl
  | .node s c n, k => by
    have h1 := fmt_preorder c (k + 1)
    have h2 := fmt_preorder n k
    have e : 4 * k + 4 = 4 * (k + 1) := by omega
    simp only [Forest.fmt, Forest.preorder, List.flatMap_cons, List.flatMap_append, e, h1, h2]
    simp

/-- Every node on its own line, in preorder, with four spaces for each level above it. -/
theorem C135_lines (s : List Char) (c : Forest) :
    pfmt s c = ((Forest.node s c .nil).preorder 0).flatMap (fun p => List.replicate (4 * p.1) ' ' ++ p.2 ++ ['\n']) :=
  fmt_preorder (.node s c .nil) 0

theorem spaces_inj {a e : Char} (ha : a ≠ ' ') (he : e ≠ ' ') {x y : List Char} : ∀ (m n : Nat),
    List.replicate m ' ' ++ a :: x = List.replicate n ' ' ++ e :: y → m = n ∧ a :: x = e :: y
  | 0, 0, h => ⟨rfl, h⟩
  | 0, n + 1, h => by simp [List.replicate_succ] at h; exact absurd h.1 ha
  | m + 1, 0, h => by simp [List.replicate_succ] at h; exact absurd h.1.symm he
  | m + 1, n + 1, h => by
    simp only [List.replicate_succ, List.cons_append, List.cons.injEq, true_and] at h
    obtain ⟨h1, h2⟩ := spaces_inj ha he m n h
    exact ⟨by omega, h2⟩

theorem line_inj {x y : List Char} : ∀ (s t : List Char), '\n' ∉ s → '\n' ∉ t → s ++ '\n' :: x = t ++ '\n' :: y → s = t ∧ x = y
  | [], [], _, _, h => by simpa using h
  | [], b :: t, _, ht, h => by simp at h; exact absurd (by simp [← h.1]) ht
  | a :: s, [], hs, _, h => by simp at h; exact absurd (by simp [h.1]) hs
  | a :: s, b :: t, hs, ht, h => by
    simp only [List.cons_append, List.cons.injEq] at h
    have := line_inj s t (fun h => hs (List.mem_cons_of_mem _ h)) (fun h => ht (List.mem_cons_of_mem _ h)) h.2
    exact ⟨by rw [h.1, this.1], this.2⟩

/-- A text that is empty or begins with fewer than `d` spaces. -/
def Low (d : Nat) (r : List Char) : Prop := r = [] ∨ ∃ k a x, k < d ∧ a ≠ ' ' ∧ r = List.replicate k ' ' ++ a :: x

theorem low_mono {d e : Nat} (h : d ≤ e) {r : List Char} (hr : Low d r) : Low e r := by
  rcases hr with rfl | ⟨k, a, x, hk, ha, rfl⟩
  · exact .inl rfl
  · exact .inr ⟨k, a, x, by omega, ha, rfl⟩

theorem fmt_node (s : List Char) (c n : Forest) (d : Nat) (r : List Char) :
    (Forest.node s c n).fmt d ++ r = List.replicate d ' ' ++ (s ++ '\n' :: (c.fmt (d + 4) ++ (n.fmt d ++ r))) := by
  simp [Forest.fmt]

theorem low_fmt {d e : Nat} (h : d < e) {f : Forest} (hf : f.Lines) {r : List Char} (hr : Low d r) : Low e (f.fmt d ++ r) := by
  cases f with
  | nil => exact low_mono (Nat.le_of_lt h) hr
  | node s c n =>
    obtain ⟨-, ⟨a, q, rfl, ha⟩, -, -⟩ := hf
    rw [fmt_node]
    exact .inr ⟨d, a, _, h, ha, rfl⟩

theorem not_low {d : Nat} {s : List Char} {c n : Forest} (hf : (Forest.node s c n).Lines) (r : List Char) :
    ¬ Low d ((Forest.node s c n).fmt d ++ r) := by
  obtain ⟨-, ⟨a, q, rfl, ha⟩, -, -⟩ := hf
  rw [fmt_node]
  rintro (h | ⟨k, b, x, hk, hb, h⟩)
  · simp at h
  · have := (spaces_inj ha hb d k h).1
    omega

theorem fmt_inj : ∀ (f g : Forest) (d : Nat) (r s : List Char), f.Lines → g.Lines → Low d r → Low d s →
    f.fmt d ++ r = g.fmt d ++ s → f = g ∧ r = s
  | .nil, .nil, _, _, _, _, _, _, _, h => ⟨rfl, h⟩
  | .nil, .node t c n, d, r, s, _, hg, hr, _, h => by
    have h : r = (Forest.node t c n).fmt d ++ s := h
    exact absurd (h ▸ hr) (not_low hg s)
  | .node t c n, .nil, d, r, s, hf, _, _, hs, h => by
    have h : (Forest.node t c n).fmt d ++ r = s := h
    exact absurd (h ▸ hs) (not_low hf r)
  | .node t c n, .node t' c' n', d, r, s, hf, hg, hr, hs, h => by
    obtain ⟨hn, ⟨a, q, rfl, ha⟩, hc, hne⟩ := hf
    obtain ⟨hn', ⟨a', q', rfl, ha'⟩, hc', hne'⟩ := hg
    rw [fmt_node, fmt_node] at h
    obtain ⟨-, h2⟩ := spaces_inj ha ha' d d h
    obtain ⟨h3, h4⟩ := line_inj (a :: q) (a' :: q') hn hn' h2
    obtain ⟨h5, h6⟩ := fmt_inj c c' (d + 4) _ _ hc hc' (low_fmt (by omega) hne hr) (low_fmt (by omega) hne' hs) h4
    obtain ⟨h7, h8⟩ := fmt_inj n n' d _ _ hne hne' hr hs h6
    exact ⟨by rw [h3, h5, h7], h8⟩

/-- Trees that are printed alike are the same.

Partial: the full claim has no hypotheses on the texts; see `C135_newline`; the names of variables, which are part of the texts, may contain line breaks. -/
theorem C135_faithful_partial (s t : List Char) (c e : Forest) (hs : (Forest.node s c .nil).Lines) (ht : (Forest.node t e .nil).Lines)
    (h : pfmt s c = pfmt t e) : s = t ∧ c = e := by
  have := fmt_inj (.node s c .nil) (.node t e .nil) 0 [] [] hs ht (.inl rfl) (.inl rfl) (by simpa [pfmt] using h)
  have h := this.1
  cases h
  exact ⟨rfl, rfl⟩

/-- The formatting does not protect line breaks in a text: a node with one is printed like a node with a child. -/
theorem C135_newline :
    pfmt "<a\n    <b>".toList .nil = pfmt "<a".toList (.node "<b>".toList .nil .nil) := by decide +kernel

example : pfmt "<x>".toList (.node "<y>".toList (.node "<1>".toList .nil (.node "<2>".toList .nil .nil)) (.node "<3>".toList .nil .nil)) =
    "<x>\n    <y>\n        <1>\n        <2>\n    <3>\n".toList := by decide +kernel
example : (Forest.node ['<', 'x'] (.node ['<', 'y'] .nil .nil) .nil).Lines := by simp [Forest.Lines]

end Verif.Pretty
